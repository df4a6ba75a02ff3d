import Verif.Algo.MassRun
import Verif.Alloc.PropsMoves
import Verif.Alloc.Props
import Verif.Mixing.Props

/-!
# Samplers and the masses of their mixing (C132)
-/

namespace Bayesmix.Density
open Bayesmix.Mixing

variable {G H Θ σ : Type} [AddCommGroup G]

/-- The masses can always be evaluated, and evaluating them changes nothing. -/
structure Evaluable (M : MixOps σ) : Prop where
  existing : ∀ s n k c, ∃ v, M.existing s n k c = .ok (v, s)
  new : ∀ s n k, ∃ v, M.new s n k = .ok (v, s)

theorem existingMasses_evaluable {M : MixOps σ} (hM : Evaluable M) (n k : ℕ) (mx : σ) (cs : List ℕ) :
    ∃ l, existingMasses M n k mx cs = .ok (l, mx) := by
  induction cs with
  | nil => exact ⟨[], rfl⟩
  | cons c cs ih =>
    obtain ⟨v, hv⟩ := hM.existing mx n k c
    obtain ⟨l, hl⟩ := ih
    exact ⟨v :: l, by simp only [existingMasses, hv, ok_bind, hl]⟩

theorem newMasses_evaluable {M : MixOps σ} (hM : Evaluable M) (n k : ℕ) (mx : σ) (m : ℕ) :
    ∃ l, newMasses M n k mx m = .ok (l, mx) := by
  induction m with
  | zero => exact ⟨[], rfl⟩
  | succ m ih =>
    obtain ⟨v, hv⟩ := hM.new mx n k
    obtain ⟨l, hl⟩ := ih
    exact ⟨v :: l, by simp only [newMasses, hv, ok_bind, hl]⟩

theorem priorMasses_evaluable {M : MixOps σ} (hM : Evaluable M) (n m : ℕ) (mx : σ) (s : Alg G H Θ) :
    ∃ l, priorMasses M n m mx s = .ok (l, mx) := by
  obtain ⟨a, ha⟩ := existingMasses_evaluable hM (n - 1) s.clus.length mx
    (s.clus.map fun o => o.card.toNat)
  obtain ⟨b, hb⟩ := newMasses_evaluable hM (n - 1) s.clus.length mx m
  exact ⟨a ++ b, by simp only [priorMasses, ha, ok_bind, hb]⟩

theorem massDatum_evaluable {M : MixOps σ} (hM : Evaluable M) {E : Env G H Θ} {upd : Bool} {n : ℕ}
    {mx : σ} {s s' : Alg G H Θ} {i rc rd : ℕ} (h : neal2Datum E upd s i rc rd = .ok s') :
    massDatum E M upd n (mx, s) i rc rd = .ok (mx, s') := by
  unfold massDatum
  cases hd : detach E upd s i with
  | error f => simp only [neal2Datum, hd, error_bind] at h; cases h
  | ok y =>
    obtain ⟨s1, o, b⟩ := y
    obtain ⟨l, hl⟩ := priorMasses_evaluable hM n 1 mx s1
    simp only [ok_bind, hl, h]

theorem massDatum8_evaluable {M : MixOps σ} (hM : Evaluable M) {E : Env G H Θ} {n : ℕ}
    {mx : σ} {s s' : Alg8 G H Θ} {i rc : ℕ} {ra : ℕ → ℕ} (h : neal8Datum E s i rc ra = .ok s') :
    massDatum8 E M n (mx, s) i rc ra = .ok (mx, s') := by
  unfold massDatum8
  cases hd : detach E false s.base i with
  | error f => simp only [neal8Datum, hd, error_bind] at h; cases h
  | ok y =>
    obtain ⟨s1, o, b⟩ := y
    obtain ⟨l, hl⟩ := priorMasses_evaluable hM n s.aux.length mx s1
    simp only [ok_bind, hl, h]

/-- A loop beside a component that it does not change. -/
theorem foldlM_pair {S α : Type} {f : S → α → Except Fault S} {g : σ × S → α → Except Fault (σ × S)}
    {mx : σ} (h : ∀ a s s', f s a = .ok s' → g (mx, s) a = .ok (mx, s')) (l : List α) {s s' : S}
    (e : l.foldlM f s = .ok s') : l.foldlM g (mx, s) = .ok (mx, s') := by
  induction l generalizing s with
  | nil =>
    simp only [List.foldlM_nil] at e ⊢
    cases e
    rfl
  | cons a l ih =>
    rw [List.foldlM_cons] at e ⊢
    cases ha : f s a with
    | error x => rw [ha] at e; cases e
    | ok t =>
      rw [ha, ok_bind] at e
      rw [h a s t ha, ok_bind]
      exact ih e

theorem massStep_evaluable {M : MixOps σ} (hM : Evaluable M) {E : Env G H Θ} {upd : Bool} {n : ℕ}
    (U : σ → Alg G H Θ → Noise → σ) {mx : σ} {s s' : Alg G H Θ} {z : Noise}
    (h : neal2Step E upd n s z = .ok s') :
    massStep E M U upd n (mx, s) z = .ok (U mx s' z, s') := by
  unfold neal2Step at h
  cases h1 : neal2Allocations E upd n z.cat s with
  | error f => rw [h1, error_bind] at h; cases h
  | ok t =>
    rw [h1, ok_bind] at h
    have e : massAllocations E M upd n z.cat (mx, s) = .ok (mx, t) :=
      foldlM_pair (fun a s s' => massDatum_evaluable hM) _ h1
    cases h2 : sampleUniqueValues E upd z.uv t with
    | error f => rw [h2, error_bind] at h; cases h
    | ok t' =>
      rw [h2, ok_bind] at h
      simp only [massStep, e, ok_bind, h2, h]

theorem massStep8_evaluable {M : MixOps σ} (hM : Evaluable M) {E : Env G H Θ} {n : ℕ}
    (U : σ → Alg8 G H Θ → Noise → σ) {mx : σ} {s s' : Alg8 G H Θ} {z : Noise}
    (h : neal8Step E n s z = .ok s') :
    massStep8 E M U n (mx, s) z = .ok (U mx s' z, s') := by
  unfold neal8Step at h
  cases h1 : neal8Allocations E n z.cat z.aux s with
  | error f => rw [h1, error_bind] at h; cases h
  | ok t =>
    rw [h1, ok_bind] at h
    have e : massAllocations8 E M n z.cat z.aux (mx, s) = .ok (mx, t) :=
      foldlM_pair (fun a s s' => massDatum8_evaluable hM) _ h1
    cases h2 : sampleUniqueValues E false z.uv t.base with
    | error f => rw [h2, error_bind] at h; cases h
    | ok t' =>
      rw [h2, ok_bind] at h
      cases h3 : updateHypers E z.hyp t' with
      | error f => rw [h3, error_bind] at h; cases h
      | ok t'' =>
        rw [h3, ok_bind] at h
        rw [← Except.ok.inj h]
        simp only [massStep8, e, ok_bind, h2, h3]

/-- Runs beside the mixing. -/
theorem foldlM_beside {S α : Type} {f : S → α → Except Fault S}
    {g : σ × S → α → Except Fault (σ × S)} {V : σ → S → α → σ}
    (h : ∀ a mx s s', f s a = .ok s' → g (mx, s) a = .ok (V mx s' a, s')) (l : List α) {mx : σ}
    {s s' : S} (e : l.foldlM f s = .ok s') : ∃ mx', l.foldlM g (mx, s) = .ok (mx', s') := by
  induction l generalizing s mx with
  | nil =>
    simp only [List.foldlM_nil] at e ⊢
    cases e
    exact ⟨mx, rfl⟩
  | cons a l ih =>
    rw [List.foldlM_cons] at e
    cases ha : f s a with
    | error x => rw [ha] at e; cases e
    | ok t =>
      rw [ha, ok_bind] at e
      obtain ⟨mx', h'⟩ := ih (mx := V mx t a) e
      exact ⟨mx', by rw [List.foldlM_cons, h a mx s t ha, ok_bind]; exact h'⟩

theorem dp_evaluable : Evaluable dpProptoOps := ⟨fun _ _ _ _ => ⟨_, rfl⟩, fun _ _ _ => ⟨_, rfl⟩⟩

theorem py_evaluable : Evaluable pyProptoOps := ⟨fun _ _ _ _ => ⟨_, rfl⟩, fun _ _ _ => ⟨_, rfl⟩⟩

/-- **C132, Dirichlet process.** From any state that the samplers keep, a run of Neal2 or Neal3 that asks
a Dirichlet process for its masses does not fail, whatever its total mass becomes (`U`), and its labels and
clusters are those of the run without the question. -/
theorem c132_dirichlet (E : Env G H Θ) (upd : Bool) (n : ℕ) (hn : 2 ≤ n)
    (hcs : upd = true → E.kind ≠ .other) (s : Alg G H Θ) (hs : Consistent E.contrib n s)
    (hne : NoEmptyOn (Finset.range n) s) (hca : ∀ o ∈ s.clus, o.saved = true → o.ph.isSome)
    (U : DPState → Alg G H Θ → Noise → DPState) (mx : DPState) (zs : List Noise) :
    ∃ mx' s', zs.foldlM (massStep E dpProptoOps U upd n) (mx, s) = .ok (mx', s') ∧
      iterate (neal2Step E upd n) s zs = .ok s' := by
  obtain ⟨s', e, -⟩ := c01_neal2_neal3_consistent E upd n hn hcs s hs hne hca zs
  obtain ⟨mx', h⟩ := foldlM_beside (g := massStep E dpProptoOps U upd n)
    (fun a mx s s' => massStep_evaluable dp_evaluable U) zs (mx := mx) e
  exact ⟨mx', s', h, e⟩

/-- **C132, Pitman-Yor process.** -/
theorem c132_pitman_yor (E : Env G H Θ) (upd : Bool) (n : ℕ) (hn : 2 ≤ n)
    (hcs : upd = true → E.kind ≠ .other) (s : Alg G H Θ) (hs : Consistent E.contrib n s)
    (hne : NoEmptyOn (Finset.range n) s) (hca : ∀ o ∈ s.clus, o.saved = true → o.ph.isSome)
    (U : PYState → Alg G H Θ → Noise → PYState) (mx : PYState) (zs : List Noise) :
    ∃ mx' s', zs.foldlM (massStep E pyProptoOps U upd n) (mx, s) = .ok (mx', s') ∧
      iterate (neal2Step E upd n) s zs = .ok s' := by
  obtain ⟨s', e, -⟩ := c01_neal2_neal3_consistent E upd n hn hcs s hs hne hca zs
  obtain ⟨mx', h⟩ := foldlM_beside (g := massStep E pyProptoOps U upd n)
    (fun a mx s s' => massStep_evaluable py_evaluable U) zs (mx := mx) e
  exact ⟨mx', s', h, e⟩

/-- **C132, Neal8**, for mixings whose masses can always be evaluated, such as the Dirichlet and the
Pitman-Yor process. -/
theorem c132_neal8 {M : MixOps σ} (hM : Evaluable M) (E : Env G H Θ) (n : ℕ) (hn : 0 < n)
    (s : Alg8 G H Θ) (haux : 0 < s.aux.length) (hs : Consistent E.contrib n s.base)
    (hne : NoEmptyOn (Finset.range n) s.base)
    (hca : ∀ o ∈ s.base.clus, o.saved = true → o.ph.isSome)
    (U : σ → Alg8 G H Θ → Noise → σ) (mx : σ) (zs : List Noise) :
    ∃ mx' s', zs.foldlM (massStep8 E M U n) (mx, s) = .ok (mx', s') ∧
      iterate (neal8Step E n) s zs = .ok s' := by
  obtain ⟨s', e, -⟩ := c02_neal8_consistent E n hn s haux hs hne hca zs
  obtain ⟨mx', h⟩ := foldlM_beside (g := massStep8 E M U n)
    (fun a mx s s' => massStep8_evaluable hM U) zs (mx := mx) e
  exact ⟨mx', s', h, e⟩

/-! ## The mixture of finite mixtures -/

section mfm
variable {coef : ℕ → ℕ → ℝ} {γ : ℝ}

theorem mfm_existing_ok {n k : ℕ} {mx : MFMState} (h : MFMRun coef γ n mx) (hk : k + 1 ≤ n) (c : ℕ) :
    ∃ v mx', (mfmProptoOps coef).existing mx n k c = .ok (v, mx') ∧ MFMRun coef γ n mx' := by
  obtain ⟨s₁, s₂, h1, h2, -⟩ := getV_two h.inv.2 hk
  have e : mfmLogMassExisting coef mx n k true c = .ok (stdLog (c + s₂.gamma), s₂) := by
    simp only [mfmLogMassExisting, h1, ok_bind, h2, if_true]
  exact ⟨_, _, e, h.logExisting e⟩

theorem mfm_new_ok {n k : ℕ} {mx : MFMState} (h : MFMRun coef γ n mx) (hk : k + 1 ≤ n) :
    ∃ v mx', (mfmProptoOps coef).new mx n k = .ok (v, mx') ∧ MFMRun coef γ n mx' := by
  obtain ⟨s₁, s₂, h1, h2, -⟩ := getV_two h.inv.2 hk
  have e : mfmLogMassNew coef mx n k true =
      .ok (stdLog (coef (k + 1) (n + 1) / coef k (n + 1) * s₂.gamma), s₂) := by
    simp only [mfmLogMassNew, h1, ok_bind, h2, if_true]
  exact ⟨_, _, e, h.logNew e⟩

theorem mfm_priorMasses_ok {n m : ℕ} {mx : MFMState} {s : Alg G H Θ}
    (h : MFMRun coef γ (n - 1) mx) (hk : s.clus.length + 1 ≤ n - 1) :
    ∃ l mx', priorMasses (mfmProptoOps coef) n m mx s = .ok (l, mx') ∧ MFMRun coef γ (n - 1) mx' := by
  have h1 : ∀ (cs : List ℕ) mx, MFMRun coef γ (n - 1) mx →
      ∃ l mx', existingMasses (mfmProptoOps coef) (n - 1) s.clus.length mx cs = .ok (l, mx') ∧
        MFMRun coef γ (n - 1) mx' := by
    intro cs
    induction cs with
    | nil => exact fun mx h => ⟨[], mx, rfl, h⟩
    | cons c cs ih =>
      intro mx h
      obtain ⟨v, mx1, e1, r1⟩ := mfm_existing_ok h hk c
      obtain ⟨l, mx2, e2, r2⟩ := ih mx1 r1
      exact ⟨v :: l, mx2, by simp only [existingMasses, e1, ok_bind, e2], r2⟩
  have h2 : ∀ (m : ℕ) mx, MFMRun coef γ (n - 1) mx →
      ∃ l mx', newMasses (mfmProptoOps coef) (n - 1) s.clus.length mx m = .ok (l, mx') ∧
        MFMRun coef γ (n - 1) mx' := by
    intro m
    induction m with
    | zero => exact fun mx h => ⟨[], mx, rfl, h⟩
    | succ m ih =>
      intro mx h
      obtain ⟨v, mx1, e1, r1⟩ := mfm_new_ok h hk
      obtain ⟨l, mx2, e2, r2⟩ := ih mx1 r1
      exact ⟨v :: l, mx2, by simp only [newMasses, e1, ok_bind, e2], r2⟩
  obtain ⟨a, mx1, e1, r1⟩ := h1 (s.clus.map fun o => o.card.toNat) mx h
  obtain ⟨b, mx2, e2, r2⟩ := h2 m mx1 r1
  exact ⟨a ++ b, mx2, by simp only [priorMasses, e1, ok_bind, e2], r2⟩

theorem mfm_priorMasses_ub {n m : ℕ} {mx : MFMState} {s : Alg G H Θ}
    (h : MFMRun coef γ (n - 1) mx) (hk : n - 1 ≤ s.clus.length) (hm : 0 < m) :
    priorMasses (mfmProptoOps coef) n m mx s = .error .ub := by
  obtain ⟨m, rfl⟩ : ∃ k, m = k + 1 := ⟨m - 1, by omega⟩
  have hv := c28_finite_mixture_violated h hk true
  unfold priorMasses
  cases hc : s.clus with
  | nil =>
    rw [hc] at hv
    simp only [List.map_nil, existingMasses, ok_bind, newMasses, mfmProptoOps, List.length_nil] at hv ⊢
    rw [(hv 0).2.2.2, error_bind, error_bind]
  | cons o os =>
    rw [hc] at hv
    simp only [List.map_cons, existingMasses, mfmProptoOps]
    rw [(hv _).2.2.1, error_bind, error_bind]

theorem foldlM_congr_mem {S α : Type} {f g : S → α → Except Fault S} (l : List α)
    (h : ∀ a ∈ l, ∀ s, f s a = g s a) (s : S) : l.foldlM f s = l.foldlM g s := by
  induction l generalizing s with
  | nil => rfl
  | cons a l ih =>
    rw [List.foldlM_cons, List.foldlM_cons, h a List.mem_cons_self]
    congr 1
    funext t
    exact ih (fun b hb => h b (List.mem_cons_of_mem a hb)) t

/-- Row `x` is alone. -/
def Alone (n : ℕ) (al : List ℕ) (x : ℕ) : Prop := ∀ y < n, y ≠ x → ¬ together al x y

/-- A sweep in which some row is moved while all others are alone, provided that each row can be put
alone. -/
theorem sweep_ub {S : Type} {n : ℕ} (f : S → ℕ → ℕ → Except Fault S) (al : S → List ℕ) (I : S → Prop)
    (hub : ∀ s i r, I s → i < n → (∀ x < n, x ≠ i → Alone n (al s) x) → f s i r = .error .ub)
    (hstep : ∀ s i, I s → i < n → ∃ r, f s i r = .error .ub ∨ ∃ s', f s i r = .ok s' ∧ I s' ∧
      (∀ x < n, ∀ y < n, x ≠ i → y ≠ i → (together (al s') x y ↔ together (al s) x y)) ∧
      Alone n (al s') i) (hn : 0 < n) (s : S) (hs : I s) :
    ∃ ω : ℕ → ℕ, (List.range n).foldlM (fun s i => f s i (ω i)) s = .error .ub := by
  have key : ∀ i ≤ n, ∃ ω : ℕ → ℕ, (List.range i).foldlM (fun s i => f s i (ω i)) s = .error .ub ∨
      ∃ s', (List.range i).foldlM (fun s i => f s i (ω i)) s = .ok s' ∧ I s' ∧
        ∀ x < i, Alone n (al s') x := by
    intro i
    induction i with
    | zero => exact fun _ => ⟨fun _ => 0, .inr ⟨s, rfl, hs, fun x hx => absurd hx (Nat.not_lt_zero x)⟩⟩
    | succ i ih =>
      intro hi
      obtain ⟨ω, h⟩ := ih (by omega)
      have hcongr : ∀ r, (List.range i).foldlM (fun s j => f s j (Function.update ω i r j)) s =
          (List.range i).foldlM (fun s j => f s j (ω j)) s := by
        intro r
        refine foldlM_congr_mem _ (fun j hj s => ?_) s
        rw [Function.update_of_ne (by have := List.mem_range.mp hj; omega)]
      rcases h with h | ⟨s', e, hI, hal⟩
      · refine ⟨ω, .inl ?_⟩
        rw [List.range_succ, List.foldlM_append, h]
        rfl
      · obtain ⟨r, hr⟩ := hstep s' i hI (by omega)
        refine ⟨Function.update ω i r, ?_⟩
        rw [List.range_succ, List.foldlM_append, hcongr r, e, ok_bind]
        simp only [List.foldlM_cons, List.foldlM_nil, Function.update_self]
        rcases hr with hr | ⟨s'', e', hI', hco, hi'⟩
        · rw [hr]; exact .inl rfl
        · refine .inr ⟨s'', by rw [e']; rfl, hI', ?_⟩
          intro x hx y hy hyx
          by_cases hxi : x = i
          · subst hxi; exact hi' y hy hyx
          · by_cases hyi : y = i
            · subst hyi
              intro ht
              exact hi' x (by omega) hxi (Eq.symm ht)
            · rw [hco x (by omega) y hy hxi hyi]
              exact hal x (by omega) y hy hyx
  obtain ⟨m, rfl⟩ : ∃ k, n = k + 1 := ⟨n - 1, by omega⟩
  obtain ⟨ω, h⟩ := key m (by omega)
  refine ⟨ω, ?_⟩
  rw [List.range_succ, List.foldlM_append]
  rcases h with h | ⟨s', e, hI, hal⟩
  · rw [h]; rfl
  · rw [e, ok_bind]
    simp only [List.foldlM_cons, List.foldlM_nil]
    rw [hub s' m (ω m) hI (by omega) (fun x hx hxm => hal x (by omega))]
    rfl

/-- All other rows alone: one cluster for each. -/
theorem others_alone {n i : ℕ} {al : List ℕ} (hi : i < n) (h : ∀ x < n, x ≠ i → Alone n al x) :
    (otherLabels n al i).card = n - 1 := by
  unfold otherLabels
  rw [Finset.card_image_of_injOn, Finset.card_erase_of_mem (Finset.mem_range.mpr hi),
    Finset.card_range]
  intro x hx y hy hxy
  simp only [Finset.coe_erase, Finset.coe_range, Set.mem_diff, Set.mem_Iio,
    Set.mem_singleton_iff] at hx hy
  by_contra hne
  exact h x hx.1 hx.2 y hy.1 (Ne.symm hne) hxy

theorem mfm_datum {E : Env G H Θ} {upd : Bool} {n i : ℕ} {mx : MFMState} {s : Alg G H Θ} (hn : 2 ≤ n)
    (hk : E.kind ≠ .other) (hr : MFMRun coef γ (n - 1) mx) (hs : MarginalOk E.contrib n s)
    (hi : i < n) (rc rd : ℕ) :
    (n - 1 ≤ (otherLabels n s.alloc i).card →
      massDatum E (mfmProptoOps coef) upd n (mx, s) i rc rd = .error .ub) ∧
    ((otherLabels n s.alloc i).card + 1 ≤ n - 1 →
      ∃ mx' s', massDatum E (mfmProptoOps coef) upd n (mx, s) i rc rd = .ok (mx', s') ∧
        neal2Datum E upd s i rc rd = .ok s' ∧ MFMRun coef γ (n - 1) mx') := by
  have hcs : CanSave E upd := fun _ => hk
  obtain ⟨s1, c, o, hdet, hd, -⟩ := detach_ok hcs hs.cons.on (Finset.mem_range.mpr hi)
  rw [← detached_length hd hs.noEmpty]
  constructor
  · intro h
    simp only [massDatum, hdet, ok_bind, mfm_priorMasses_ub hr h one_pos, error_bind]
  · intro h
    obtain ⟨l, mx', e, hr'⟩ := mfm_priorMasses_ok (m := 1) hr h
    obtain ⟨s', e', -⟩ := neal2Datum_ok (upd := upd) rc rd hn hcs hs.cons hs.noEmpty hs.caches hi
    exact ⟨mx', s', by simp only [massDatum, hdet, ok_bind, e, e'], e', hr'⟩

theorem mfm_datum8 {E : Env G H Θ} {n i : ℕ} {mx : MFMState} {s : Alg8 G H Θ}
    (haux : 0 < s.aux.length) (hr : MFMRun coef γ (n - 1) mx) (hs : MarginalOk E.contrib n s.base)
    (hi : i < n) (rc : ℕ) (ra : ℕ → ℕ) :
    (n - 1 ≤ (otherLabels n s.base.alloc i).card →
      massDatum8 E (mfmProptoOps coef) n (mx, s) i rc ra = .error .ub) ∧
    ((otherLabels n s.base.alloc i).card + 1 ≤ n - 1 →
      ∃ mx' s', massDatum8 E (mfmProptoOps coef) n (mx, s) i rc ra = .ok (mx', s') ∧
        neal8Datum E s i rc ra = .ok s' ∧ MFMRun coef γ (n - 1) mx') := by
  obtain ⟨s1, c, o, hdet, hd, -⟩ :=
    detach_ok (canSave_false E) hs.cons.on (Finset.mem_range.mpr hi)
  rw [← detached_length hd hs.noEmpty]
  constructor
  · intro h
    simp only [massDatum8, hdet, ok_bind, mfm_priorMasses_ub hr h haux, error_bind]
  · intro h
    obtain ⟨l, mx', e, hr'⟩ := mfm_priorMasses_ok (m := s.aux.length) hr h
    obtain ⟨s', e', -⟩ := neal8Datum_ok rc ra haux hs hi
    exact ⟨mx', s', by simp only [massDatum8, hdet, ok_bind, e, e'], e', hr'⟩

/-- **C132, finite mixtures, what holds.** As long as the other rows are not all alone, the update of a
row does not fail and moves the row as without the masses. -/
theorem c132_finite_mixture_partial (E : Env G H Θ) (upd : Bool) (n : ℕ) (hn : 2 ≤ n)
    (hk : E.kind ≠ .other) (s : Alg G H Θ) (hs : Consistent E.contrib n s)
    (hne : NoEmptyOn (Finset.range n) s) (hca : ∀ o ∈ s.clus, o.saved = true → o.ph.isSome)
    (mx : MFMState) (hr : MFMRun coef γ (n - 1) mx) (i : ℕ) (hi : i < n)
    (hal : ∃ x < n, x ≠ i ∧ ∃ y < n, y ≠ i ∧ x ≠ y ∧ together s.alloc x y) (rc rd : ℕ) :
    ∃ mx' s', massDatum E (mfmProptoOps coef) upd n (mx, s) i rc rd = .ok (mx', s') ∧
      neal2Datum E upd s i rc rd = .ok s' ∧ MFMRun coef γ (n - 1) mx' := by
  refine (mfm_datum hn hk hr ⟨hs, hne, hca⟩ hi rc rd).2 ?_
  obtain ⟨x, hx, hxi, y, hy, hyi, hxy, ht⟩ := hal
  have hlt : (otherLabels n s.alloc i).card < ((Finset.range n).erase i).card := by
    refine lt_of_le_of_ne Finset.card_image_le fun e => hxy ?_
    exact Finset.card_image_iff.mp e (by simp [hx, hxi]) (by simp [hy, hyi]) ht
  rw [Finset.card_erase_of_mem (Finset.mem_range.mpr hi), Finset.card_range] at hlt
  omega

/-- C132 fails for the mixture of finite mixtures: from every state that Neal2 and Neal3 keep, for all
values drawn, there are labels such that the first iteration, and the run with it, reads outside of the
table of coefficients. (Each row is put alone in turn; the last one then has only lonely others.) -/
theorem c132_finite_mixture_violated (E : Env G H Θ) (upd : Bool) (n : ℕ) (hn : 2 ≤ n)
    (hk : E.kind ≠ .other) (s : Alg G H Θ) (hs : Consistent E.contrib n s)
    (hne : NoEmptyOn (Finset.range n) s) (hca : ∀ o ∈ s.clus, o.saved = true → o.ph.isSome)
    (mx : MFMState) (hr : MFMRun coef γ (n - 1) mx)
    (U : MFMState → Alg G H Θ → Noise → MFMState) (z : Noise) :
    ∃ rc : ℕ → ℕ, ∀ zs : List Noise,
      (({ z with cat := fun i => (rc i, (z.cat i).2) } : Noise) :: zs).foldlM
        (massStep E (mfmProptoOps coef) U upd n) (mx, s) = .error .ub := by
  obtain ⟨ω, h⟩ := sweep_ub (n := n)
    (fun x i r => massDatum E (mfmProptoOps coef) upd n x i r (z.cat i).2) (fun x => x.2.alloc)
    (fun x => MFMRun coef γ (n - 1) x.1 ∧ MarginalOk E.contrib n x.2) (by
      rintro ⟨mx, s⟩ i r ⟨h1, h2⟩ hi hal
      exact (mfm_datum hn hk h1 h2 hi r _).1 (others_alone hi hal).ge) (by
      rintro ⟨mx, s⟩ i ⟨h1, h2⟩ hi
      dsimp only at h1 h2 ⊢
      refine ⟨(otherLabels n s.alloc i).card, ?_⟩
      by_cases hc : n - 1 ≤ (otherLabels n s.alloc i).card
      · exact .inl ((mfm_datum hn hk h1 h2 hi _ _).1 hc)
      · obtain ⟨mx', s', e, e', hr'⟩ := (mfm_datum (upd := upd) hn hk h1 h2 hi
          (otherLabels n s.alloc i).card (z.cat i).2).2 (by omega)
        obtain ⟨s2, e2, hre, hne2⟩ := neal2Datum_ok (upd := upd) (otherLabels n s.alloc i).card
          (z.cat i).2 hn (fun _ => hk) h2.cons h2.noEmpty h2.caches hi
        obtain ⟨s3, e3, hm⟩ := c68_neal2_neal3_move E upd n hn hk s h2.cons h2.noEmpty h2.caches i hi
          (otherLabels n s.alloc i).card (z.cat i).2
        cases e'.symm.trans e2
        cases e'.symm.trans e3
        refine .inr ⟨_, e, ⟨hr', hre.cons, hne2, hre.caches⟩,
          fun x hx y hy hxi hyi => hre.co x hx y hy hxi hyi, ?_⟩
        exact (hm.new (by rw [Nat.mod_eq_of_lt (Nat.lt_succ_self _)])).1) (by omega) (mx, s)
      ⟨hr, hs, hne, hca⟩
  refine ⟨ω, fun zs => ?_⟩
  rw [List.foldlM_cons]
  have : massAllocations E (mfmProptoOps coef) upd n (fun i => (ω i, (z.cat i).2)) (mx, s) =
      .error .ub := h
  simp only [massStep, this, error_bind]

/-- With two rows every run with a mixture of finite mixtures fails in this way, whatever is drawn. -/
theorem c132_finite_mixture_two_rows_violated (E : Env G H Θ) (upd : Bool)
    (hk : E.kind ≠ .other) (s : Alg G H Θ) (hs : Consistent E.contrib 2 s)
    (hne : NoEmptyOn (Finset.range 2) s) (hca : ∀ o ∈ s.clus, o.saved = true → o.ph.isSome)
    (mx : MFMState) (hr : MFMRun coef γ 1 mx) (U : MFMState → Alg G H Θ → Noise → MFMState)
    (z : Noise) (zs : List Noise) :
    (z :: zs).foldlM (massStep E (mfmProptoOps coef) U upd 2) (mx, s) = .error .ub := by
  have h : massDatum E (mfmProptoOps coef) upd 2 (mx, s) 0 (z.cat 0).1 (z.cat 0).2 = .error .ub := by
    refine (mfm_datum (n := 2) le_rfl hk hr ⟨hs, hne, hca⟩ two_pos _ _).1 ?_
    have : ((Finset.range 2).erase 0) = {1} := by decide
    rw [otherLabels, this, Finset.image_singleton, Finset.card_singleton]
  simp only [List.foldlM_cons, massStep, massAllocations, List.range_succ, List.range_zero,
    List.nil_append, List.cons_append, h, error_bind]

/-- C132 fails for the mixture of finite mixtures in Neal8, for all numbers of auxiliary blocks. -/
theorem c132_finite_mixture_neal8_violated (E : Env G H Θ) (n : ℕ) (hn : 2 ≤ n)
    (s : Alg8 G H Θ) (haux : 0 < s.aux.length) (hs : Consistent E.contrib n s.base)
    (hne : NoEmptyOn (Finset.range n) s.base)
    (hca : ∀ o ∈ s.base.clus, o.saved = true → o.ph.isSome)
    (mx : MFMState) (hr : MFMRun coef γ (n - 1) mx)
    (U : MFMState → Alg8 G H Θ → Noise → MFMState) (z : Noise) :
    ∃ rc : ℕ → ℕ, ∀ zs : List Noise,
      (({ z with cat := fun i => (rc i, (z.cat i).2) } : Noise) :: zs).foldlM
        (massStep8 E (mfmProptoOps coef) U n) (mx, s) = .error .ub := by
  obtain ⟨ω, h⟩ := sweep_ub (n := n)
    (fun x i r => massDatum8 E (mfmProptoOps coef) n x i r (z.aux i)) (fun x => x.2.base.alloc)
    (fun x => MFMRun coef γ (n - 1) x.1 ∧ MarginalOk E.contrib n x.2.base ∧ 0 < x.2.aux.length) (by
      rintro ⟨mx, s⟩ i r ⟨h1, h2, h3⟩ hi hal
      exact (mfm_datum8 h3 h1 h2 hi r _).1 (others_alone hi hal).ge) (by
      rintro ⟨mx, s⟩ i ⟨h1, h2, h3⟩ hi
      dsimp only at h1 h2 h3 ⊢
      refine ⟨(otherLabels n s.base.alloc i).card, ?_⟩
      by_cases hc : n - 1 ≤ (otherLabels n s.base.alloc i).card
      · exact .inl ((mfm_datum8 h3 h1 h2 hi _ _).1 hc)
      · obtain ⟨mx', s', e, e', hr'⟩ := (mfm_datum8 h3 h1 h2 hi
          (otherLabels n s.base.alloc i).card (z.aux i)).2 (by omega)
        obtain ⟨s2, e2, hre, hne2, hl2⟩ := neal8Datum_ok (otherLabels n s.base.alloc i).card
          (z.aux i) h3 h2 hi
        obtain ⟨s3, e3, hm1, hm2⟩ := c68_neal8_move E n s h3 h2.cons h2.noEmpty h2.caches i hi
          (otherLabels n s.base.alloc i).card (z.aux i) _ _ _ rfl rfl rfl
        cases e'.symm.trans e2
        cases e'.symm.trans e3
        refine .inr ⟨_, e, ⟨hr', ⟨hre.cons, hne2, hre.caches⟩, by show 0 < s'.aux.length; omega⟩,
          fun x hx y hy hxi hyi => hre.co x hx y hy hxi hyi, ?_⟩
        have hmod : (otherLabels n s.base.alloc i).card %
            ((otherLabels n s.base.alloc i).card + s.aux.length) =
            (otherLabels n s.base.alloc i).card := Nat.mod_eq_of_lt (by omega)
        by_cases ha : ∃ j < n, j ≠ i ∧ together s.base.alloc i j
        · exact ((hm2 ha).new hmod.ge).1
        · push Not at ha
          exact ((hm1 ha).new hmod.ge).1) (by omega) (mx, s)
      ⟨hr, ⟨hs, hne, hca⟩, haux⟩
  refine ⟨ω, fun zs => ?_⟩
  rw [List.foldlM_cons]
  have : massAllocations8 E (mfmProptoOps coef) n (fun i => (ω i, (z.cat i).2)) z.aux (mx, s) =
      .error .ub := h
  simp only [massStep8, this, error_bind]

/-- Non-vacuity: initialized states of four rows in two clusters; Neal3 with a Dirichlet process runs, with
a mixture of finite mixtures there are labels for which it fails. -/
example (zs : List Noise) : ∃ s : Alg ℤ ℤ ℤ, s.alloc.length = 4 ∧
    (∃ mx' s', zs.foldlM (massStep (toyEnv .conjugate fun h _ _ => h) dpProptoOps (fun mx _ _ => mx)
      true 4) (⟨1, 0⟩, s) = .ok (mx', s')) ∧
    ∃ z, (z :: zs).foldlM (massStep (toyEnv .conjugate fun h _ _ => h) (mfmProptoOps fun _ _ => 1)
      (fun mx _ _ => mx) true 4) (⟨1, none⟩, s) = .error .ub := by
  have hk : (toyEnv .conjugate fun h _ _ => h).kind ≠ .other := by decide
  obtain ⟨s, -, h, -⟩ := initAlloc_ok (E := toyEnv .conjugate fun h _ _ => h) (upd := true) (K := 2)
    (n := 4) (h0 := 100) (θ0 := 0) ⟨fun _ => 0, fun _ => 1⟩ (o := toyObj) (fun _ => hk) (by omega)
    (by omega) (by simp [Hier.CacheOk, toyObj])
  refine ⟨s, h.cons.len, ?_, ?_⟩
  · obtain ⟨mx', s', e, -⟩ := c132_dirichlet (toyEnv .conjugate fun h _ _ => h) true 4 (by omega)
      (fun _ => hk) s h.cons h.noEmpty h.caches (fun mx _ _ => mx) ⟨1, 0⟩ zs
    exact ⟨mx', s', e⟩
  · obtain ⟨rc, e⟩ := c132_finite_mixture_violated (coef := fun _ _ => 1) (γ := 1)
      (toyEnv .conjugate fun h _ _ => h) true 4 (by omega) hk s h.cons h.noEmpty h.caches
      ⟨1, none⟩ MFMRun.fresh (fun mx _ _ => mx) zeroNoise
    exact ⟨_, e zs⟩

end mfm

end Bayesmix.Density
