import Verif.Algo.SMMassLemmas

/-!
# The split-merge sampler and the masses of its mixing (C142)
-/

namespace Bayesmix.SplitMerge
open Bayesmix.Density Bayesmix.Mixing Bayesmix.Hierarchies

variable {G H Θ σ : Type} [AddCommGroup G]

/-! ## Full scans -/

/-- In the states `P` the mixing answers the questions next to `k` clusters and stays in such a state. -/
def AnswersAt (M : MixOps σ) (P : σ → Prop) (n k : ℕ) : Prop :=
  (∀ mx c, P mx → ∃ v mx', M.existing mx n k c = .ok (v, mx') ∧ P mx') ∧
    ∀ mx, P mx → ∃ v mx', M.new mx n k = .ok (v, mx') ∧ P mx'

omit [AddCommGroup G] in
theorem priorMasses_keep {M : MixOps σ} {P : σ → Prop} {n : ℕ} {s : Alg G H Θ}
    (h : AnswersAt M P (n - 1) s.clus.length) {mx : σ} (hP : P mx) :
    ∃ l mx', priorMasses M n 1 mx s = .ok (l, mx') ∧ P mx' := by
  have h1 : ∀ (cs : List ℕ) mx, P mx →
      ∃ l mx', existingMasses M (n - 1) s.clus.length mx cs = .ok (l, mx') ∧ P mx' := by
    intro cs
    induction cs with
    | nil => exact fun mx h => ⟨[], mx, rfl, h⟩
    | cons c cs ih =>
      intro mx hP
      obtain ⟨v, mx1, e1, r1⟩ := h.1 mx c hP
      obtain ⟨l, mx2, e2, r2⟩ := ih mx1 r1
      exact ⟨v :: l, mx2, by simp only [existingMasses, e1, ok_bind, e2], r2⟩
  obtain ⟨a, mx1, e1, r1⟩ := h1 (s.clus.map fun o => o.card.toNat) mx hP
  obtain ⟨v, mx2, e2, r2⟩ := h.2 mx1 r1
  exact ⟨a ++ [v], mx2, by simp only [priorMasses, e1, ok_bind, newMasses, e2], r2⟩

theorem massDatum_keep {M : MixOps σ} {P : σ → Prop} {E : Env G H Θ} {n i : ℕ} {s : Alg G H Θ}
    (hn : 2 ≤ n) (hk : E.kind ≠ .other) (hs : MarginalOk E.contrib n s) (hi : i < n)
    (h : AnswersAt M P (n - 1) (otherLabels n s.alloc i).card) {mx : σ} (hP : P mx) (rc rd : ℕ) :
    ∃ mx' s', massDatum E M true n (mx, s) i rc rd = .ok (mx', s') ∧
      neal2Datum E true s i rc rd = .ok s' ∧ P mx' := by
  obtain ⟨s1, c, o, hdet, hd, -⟩ := detach_ok (upd := true) (fun _ => hk) hs.cons.on (Finset.mem_range.mpr hi)
  rw [← detached_length hd hs.noEmpty] at h
  obtain ⟨l, mx', e, hP'⟩ := priorMasses_keep h hP
  obtain ⟨s', e', -⟩ := neal2Datum_ok (upd := true) rc rd hn (fun _ => hk) hs.cons hs.noEmpty hs.caches hi
  exact ⟨mx', s', by simp only [massDatum, hdet, ok_bind, e, e'], e', hP'⟩

theorem massAllocations_keep {M : MixOps σ} {P : σ → Prop} {E : Env G H Θ} {n : ℕ}
    (hn : 2 ≤ n) (hk : E.kind ≠ .other) (h : ∀ k, 1 ≤ k → k ≤ n - 1 → AnswersAt M P (n - 1) k)
    (ω : ℕ → ℕ × ℕ) {s : Alg G H Θ} (hs : MarginalOk E.contrib n s) {mx : σ} (hP : P mx) :
    ∃ mx' s', massAllocations E M true n ω (mx, s) = .ok (mx', s') ∧
      neal2Allocations E true n ω s = .ok s' ∧ P mx' ∧ MarginalOk E.contrib n s' := by
  have key : ∀ l : List ℕ, (∀ i ∈ l, i < n) → ∀ mx s, P mx → MarginalOk E.contrib n s → ∃ mx' s',
      l.foldlM (fun x i => massDatum E M true n x i (ω i).1 (ω i).2) (mx, s) = .ok (mx', s') ∧
      l.foldlM (fun s i => neal2Datum E true s i (ω i).1 (ω i).2) s = .ok s' ∧ P mx' ∧
      MarginalOk E.contrib n s' := by
    intro l
    induction l with
    | nil => exact fun _ mx s hP hs => ⟨mx, s, rfl, rfl, hP, hs⟩
    | cons i l ih =>
      intro hl mx s hP hs
      have hi := hl i List.mem_cons_self
      have hc : 1 ≤ (otherLabels n s.alloc i).card ∧ (otherLabels n s.alloc i).card ≤ n - 1 := by
        constructor
        · obtain ⟨x, hx⟩ : ∃ x, x < n ∧ x ≠ i := by
            by_cases h0 : i = 0
            · exact ⟨1, by omega, by omega⟩
            · exact ⟨0, by omega, by omega⟩
          exact Finset.card_pos.mpr ⟨_, Finset.mem_image_of_mem _ (by simp [hx] : x ∈ _)⟩
        · refine Finset.card_image_le.trans ?_
          rw [Finset.card_erase_of_mem (Finset.mem_range.mpr hi), Finset.card_range]
      obtain ⟨mx1, s1, e1, e1', hP1⟩ := massDatum_keep hn hk hs hi (h _ hc.1 hc.2) hP (ω i).1 (ω i).2
      obtain ⟨s2, e2, hre, hne2⟩ := neal2Datum_ok (upd := true) (ω i).1 (ω i).2 hn (fun _ => hk) hs.cons
        hs.noEmpty hs.caches hi
      cases e1'.symm.trans e2
      obtain ⟨mx', s', h1, h2, h3, h4⟩ := ih (fun j hj => hl j (List.mem_cons_of_mem _ hj)) mx1 s1 hP1
        ⟨hre.cons, hne2, hre.caches⟩
      exact ⟨mx', s', by rw [List.foldlM_cons, e1]; exact h1, by rw [List.foldlM_cons, e1']; exact h2,
        h3, h4⟩
  exact key _ (fun i hi => List.mem_range.mp hi) mx s hP hs

/-- If the mixing answers all questions, with the numbers `S` in the moves, then an iteration does not fail
and is that of the sampler with these numbers. -/
theorem stepM_follow {M : MixOps σ} {S : Scores H} {P : σ → Prop} (hA : Answers M S P) {E : Env G H Θ}
    (hk : E.kind ≠ .other) (nRestr : ℕ) {n : ℕ} (hn : 2 ≤ n)
    (h : ∀ k, 1 ≤ k → k ≤ n - 1 → AnswersAt M P (n - 1) k) (U : σ → Alg G H Θ → SMNoise → σ) (z : SMNoise)
    {s : Alg G H Θ} (hs : MarginalOk E.contrib n s) {mx : σ} (hP : P mx) :
    ∃ mx' s', stepM E S.pred M U nRestr n (mx, s) z = .ok (U mx' s' z, s') ∧
      step E S nRestr n s z = .ok s' ∧ P mx' ∧ MarginalOk E.contrib n s' := by
  obtain ⟨s1, e1, h1⟩ := foldlM_list_inv (mhUpdate E S nRestr n) (MarginalOk E.contrib n)
    (fun z _ h => mhUpdate_ok S nRestr hk hn z h) z.mh s hs
  obtain ⟨mx1, m1, hP1⟩ := foldlM_follow (g := mhUpdateM E S.pred M nRestr n)
    (fun _ _ _ _ hP e => mhUpdateM_follow hA hP e) z.mh hP e1
  have hfull : ∀ (l : List (ℕ → ℕ × ℕ)) mx s, P mx → MarginalOk E.contrib n s → ∃ mx' s',
      l.foldlM (fun x ω => massAllocations E M true n ω x) (mx, s) = .ok (mx', s') ∧
      l.foldlM (fun s ω => neal2Allocations E true n ω s) s = .ok s' ∧ P mx' ∧
      MarginalOk E.contrib n s' := by
    intro l
    induction l with
    | nil => exact fun mx s hP hs => ⟨mx, s, rfl, rfl, hP, hs⟩
    | cons ω l ih =>
      intro mx s hP hs
      obtain ⟨mx1, s1, a1, a2, a3, a4⟩ := massAllocations_keep hn hk h ω hs hP
      obtain ⟨mx2, s2, b1, b2, b3, b4⟩ := ih mx1 s1 a3 a4
      exact ⟨mx2, s2, by rw [List.foldlM_cons, a1]; exact b1, by rw [List.foldlM_cons, a2]; exact b2,
        b3, b4⟩
  obtain ⟨mx2, s2, m2, e2, hP2, h2⟩ := hfull z.full mx1 s1 hP1 h1
  obtain ⟨s3, s4, e3, e4, h4⟩ := marginal_tail_ok (E := E) (upd := true) ⟨fun _ => (0, 0), z.uv, z.hyp,
    fun _ _ => 0⟩ (by omega) h2
  have e3' : sampleUniqueValues E true z.uv s2 = .ok s3 := e3
  have e4' : updateHypers E z.hyp s3 = .ok s4 := e4
  refine ⟨mx2, s4, ?_, ?_, hP2, h4⟩
  · simp only [stepM, m1, ok_bind, m2, e3', e4']
  · simp only [step, e1, ok_bind, e2, e3', e4']

/-! ## Processes -/

theorem dp_answers (pred : H → ℕ → ℝ) (st : DPState) :
    Answers dpProptoOps (dpScores pred st) (· = st) :=
  ⟨fun _ _ _ h => ⟨_, _, rfl, h, by rw [h]; rfl⟩, fun _ _ h => ⟨_, _, rfl, h, by rw [h]; rfl⟩⟩

theorem py_answers (pred : H → ℕ → ℝ) (st : PYState) :
    Answers pyProptoOps (pyScores pred st) (· = st) :=
  ⟨fun _ _ _ h => ⟨_, _, rfl, h, by rw [h]; rfl⟩, fun _ _ h => ⟨_, _, rfl, h, by rw [h]; rfl⟩⟩

theorem evaluable_answersAt {M : MixOps σ} (hM : Evaluable M) (st : σ) (n k : ℕ) :
    AnswersAt M (· = st) n k :=
  ⟨fun mx c h => by obtain ⟨v, e⟩ := hM.existing mx n k c; exact ⟨v, mx, e, h⟩,
    fun mx h => by obtain ⟨v, e⟩ := hM.new mx n k; exact ⟨v, mx, e, h⟩⟩

/-- **C142, Dirichlet process.** From any state that the sampler keeps, an iteration of the split-merge
sampler that asks a Dirichlet process for its masses is the one with the masses of that process; runs do
not fail, whatever the total mass becomes (`U`). -/
theorem c142_dirichlet (E : Env G H Θ) (pred : H → ℕ → ℝ) (U : DPState → Alg G H Θ → SMNoise → DPState)
    (nRestr n : ℕ) (hn : 2 ≤ n) (hk : E.kind ≠ .other) (s : Alg G H Θ) (hs : Consistent E.contrib n s)
    (hne : NoEmptyOn (Finset.range n) s) (hca : ∀ o ∈ s.clus, o.saved = true → o.ph.isSome) (mx : DPState) :
    (∀ z, ∃ s', stepM E pred dpProptoOps U nRestr n (mx, s) z = .ok (U mx s' z, s') ∧
      step E (dpScores pred mx) nRestr n s z = .ok s') ∧
    ∀ zs : List SMNoise, ∃ mx' s', zs.foldlM (stepM E pred dpProptoOps U nRestr n) (mx, s) = .ok (mx', s') ∧
      Consistent E.contrib n s' ∧ NoEmptyOn (Finset.range n) s' := by
  have one : ∀ mx s z, MarginalOk E.contrib n s → ∃ s',
      stepM E pred dpProptoOps U nRestr n (mx, s) z = .ok (U mx s' z, s') ∧
      step E (dpScores pred mx) nRestr n s z = .ok s' ∧ MarginalOk E.contrib n s' := by
    intro mx s z hs
    obtain ⟨mx', s', h1, h2, rfl, h4⟩ := stepM_follow (dp_answers pred mx) hk nRestr hn
      (fun k _ _ => evaluable_answersAt dp_evaluable mx _ k) U z hs rfl
    exact ⟨s', h1, h2, h4⟩
  refine ⟨fun z => ?_, fun zs => ?_⟩
  · obtain ⟨s', h1, h2, -⟩ := one mx s z ⟨hs, hne, hca⟩
    exact ⟨s', h1, h2⟩
  · obtain ⟨x, e, h⟩ := foldlM_list_inv (stepM E pred dpProptoOps U nRestr n)
      (fun x => MarginalOk E.contrib n x.2) (fun z x h => by
        obtain ⟨s', h1, -, h3⟩ := one x.1 x.2 z h
        exact ⟨_, h1, h3⟩) zs (mx, s) ⟨hs, hne, hca⟩
    exact ⟨x.1, x.2, e, h.cons, h.noEmpty⟩

/-- **C142, Pitman-Yor process.** The same. -/
theorem c142_pitman_yor (E : Env G H Θ) (pred : H → ℕ → ℝ) (U : PYState → Alg G H Θ → SMNoise → PYState)
    (nRestr n : ℕ) (hn : 2 ≤ n) (hk : E.kind ≠ .other) (s : Alg G H Θ) (hs : Consistent E.contrib n s)
    (hne : NoEmptyOn (Finset.range n) s) (hca : ∀ o ∈ s.clus, o.saved = true → o.ph.isSome) (mx : PYState) :
    (∀ z, ∃ s', stepM E pred pyProptoOps U nRestr n (mx, s) z = .ok (U mx s' z, s') ∧
      step E (pyScores pred mx) nRestr n s z = .ok s') ∧
    ∀ zs : List SMNoise, ∃ mx' s', zs.foldlM (stepM E pred pyProptoOps U nRestr n) (mx, s) = .ok (mx', s') ∧
      Consistent E.contrib n s' ∧ NoEmptyOn (Finset.range n) s' := by
  have one : ∀ mx s z, MarginalOk E.contrib n s → ∃ s',
      stepM E pred pyProptoOps U nRestr n (mx, s) z = .ok (U mx s' z, s') ∧
      step E (pyScores pred mx) nRestr n s z = .ok s' ∧ MarginalOk E.contrib n s' := by
    intro mx s z hs
    obtain ⟨mx', s', h1, h2, rfl, h4⟩ := stepM_follow (py_answers pred mx) hk nRestr hn
      (fun k _ _ => evaluable_answersAt py_evaluable mx _ k) U z hs rfl
    exact ⟨s', h1, h2, h4⟩
  refine ⟨fun z => ?_, fun zs => ?_⟩
  · obtain ⟨s', h1, h2, -⟩ := one mx s z ⟨hs, hne, hca⟩
    exact ⟨s', h1, h2⟩
  · obtain ⟨x, e, h⟩ := foldlM_list_inv (stepM E pred pyProptoOps U nRestr n)
      (fun x => MarginalOk E.contrib n x.2) (fun z x h => by
        obtain ⟨s', h1, -, h3⟩ := one x.1 x.2 z h
        exact ⟨_, h1, h3⟩) zs (mx, s) ⟨hs, hne, hca⟩
    exact ⟨x.1, x.2, e, h.cons, h.noEmpty⟩

/-! ## The mixture of finite mixtures -/

section mfm
variable {coef : ℕ → ℕ → ℝ} {γ : ℝ}

/-- The table has `T` entries, and entries two and three are `v2` and `v3`. -/
def Settled (γ : ℝ) (T : ℕ) (v2 v3 : ℝ) (mx : MFMState) : Prop :=
  mx.gamma = γ ∧ ∃ tab, mx.table = some tab ∧ tab.length = T ∧ tab[2]? = some (some v2) ∧
    tab[3]? = some (some v3)

theorem getV_settled {T : ℕ} {v2 v3 : ℝ} {mx : MFMState} (h : Settled γ T v2 v3 mx) (t n : ℕ) :
    (T ≤ t → getV coef mx t n = .error .ub) ∧
    (t < T → ∃ v mx', getV coef mx t n = .ok (v, mx') ∧ Settled γ T v2 v3 mx' ∧
      (t = 2 → v = v2) ∧ (t = 3 → v = v3)) := by
  obtain ⟨hg, tab, ht, hl, h2, h3⟩ := h
  constructor
  · intro hT
    simp [getV, ht, vget, List.getElem?_eq_none (show tab.length ≤ t by omega)]
  · intro hT
    have hT' : t < tab.length := by omega
    have e : vget tab t = .ok tab[t] := vget_ok (List.getElem?_eq_getElem hT')
    cases hv : tab[t] with
    | some v =>
      have hvt : tab[t]? = some (some v) := by rw [List.getElem?_eq_getElem hT', hv]
      refine ⟨v, ⟨mx.gamma, some tab⟩, ?_, ⟨hg, tab, rfl, hl, h2, h3⟩, ?_, ?_⟩
      · simp [getV, ht, e, hv]
      · rintro rfl; rw [h2] at hvt; exact (Option.some.inj (Option.some.inj hvt)).symm
      · rintro rfl; rw [h3] at hvt; exact (Option.some.inj (Option.some.inj hvt)).symm
    | none =>
      have hvt : tab[t]? = some none := by rw [List.getElem?_eq_getElem hT', hv]
      have ht2 : t ≠ 2 := by rintro rfl; rw [h2] at hvt; cases hvt
      have ht3 : t ≠ 3 := by rintro rfl; rw [h3] at hvt; cases hvt
      refine ⟨coef t (n + 1), ⟨mx.gamma, some (tab.set t (some (coef t (n + 1))))⟩, ?_,
        ⟨hg, _, rfl, by simpa using hl, by rw [List.getElem?_set_ne ht2]; exact h2,
          by rw [List.getElem?_set_ne ht3]; exact h3⟩, fun e => absurd e ht2, fun e => absurd e ht3⟩
      simp [getV, ht, e, hv]

theorem settled_two {T : ℕ} {v2 v3 : ℝ} {mx : MFMState} (h : Settled γ T v2 v3 mx) (k n : ℕ) :
    (T ≤ k + 1 → ∀ c, (mfmProptoOps coef).existing mx n k c = .error .ub ∧
      (mfmProptoOps coef).new mx n k = .error .ub) ∧
    (k + 1 < T → ∃ v1 v2' mx', Settled γ T v2 v3 mx' ∧ (k = 2 → v1 = v2 ∧ v2' = v3) ∧
      (∀ c : ℕ, (mfmProptoOps coef).existing mx n k c = .ok (stdLog (c + γ), mx')) ∧
      (mfmProptoOps coef).new mx n k = .ok (stdLog (v2' / v1 * γ), mx')) := by
  constructor
  · intro hT c
    by_cases hk : k < T
    · obtain ⟨v1, mx1, e1, h1, -⟩ := (getV_settled (coef := coef) h k n).2 hk
      have e2 := (getV_settled (coef := coef) h1 (k + 1) n).1 hT
      constructor <;> simp [mfmProptoOps, mfmLogMassExisting, mfmLogMassNew, e1, e2]
    · have e1 := (getV_settled (coef := coef) h k n).1 (by omega)
      constructor <;> simp [mfmProptoOps, mfmLogMassExisting, mfmLogMassNew, e1]
  · intro hT
    obtain ⟨v1, mx1, e1, h1, a2, -⟩ := (getV_settled (coef := coef) h k n).2 (by omega)
    obtain ⟨v2', mx2, e2, h2, -, b3⟩ := (getV_settled (coef := coef) h1 (k + 1) n).2 hT
    refine ⟨v1, v2', mx2, h2, fun e => ⟨a2 e, b3 (by omega)⟩, fun c => ?_, ?_⟩ <;>
      simp [mfmProptoOps, mfmLogMassExisting, mfmLogMassNew, e1, e2, h2.1]

theorem mfm_answers (pred : H → ℕ → ℝ) {T : ℕ} (hT : 4 ≤ T) (v2 v3 : ℝ) :
    Answers (mfmProptoOps coef) (mfmTableScores pred γ (v3 / v2)) (Settled γ T v2 v3) := by
  constructor
  · intro mx n c h
    obtain ⟨v1, v2', mx', h', hv, e, -⟩ := (settled_two (coef := coef) h 2 n).2 (by omega)
    exact ⟨_, mx', e _, h', rfl⟩
  · intro mx n h
    obtain ⟨v1, v2', mx', h', hv, -, e⟩ := (settled_two (coef := coef) h 2 n).2 (by omega)
    obtain ⟨rfl, rfl⟩ := hv rfl
    exact ⟨_, mx', e, h', rfl⟩

theorem mfm_answersAt {T k : ℕ} (hk : k + 1 < T) (v2 v3 : ℝ) (n : ℕ) :
    AnswersAt (mfmProptoOps coef) (Settled γ T v2 v3) n k := by
  constructor
  · intro mx c h
    obtain ⟨v1, v2', mx', h', -, e, -⟩ := (settled_two (coef := coef) h k n).2 hk
    exact ⟨_, mx', e _, h'⟩
  · intro mx h
    obtain ⟨v1, v2', mx', h', -, -, e⟩ := (settled_two (coef := coef) h k n).2 hk
    exact ⟨_, mx', e, h'⟩

/-- The table after the first question of a move. -/
def firstTable (coef : ℕ → ℕ → ℝ) (γ : ℝ) (n : ℕ) : MFMState :=
  ⟨γ, some (((List.replicate (n + 1) none).set 2 (some (coef 2 (n + 1)))).set 3 (some (coef 3 (n + 1))))⟩

theorem firstTable_settled {n : ℕ} (hn : 3 ≤ n) :
    Settled γ (n + 1) (coef 2 (n + 1)) (coef 3 (n + 1)) (firstTable coef γ n) := by
  refine ⟨rfl, _, rfl, by simp, ?_, ?_⟩
  · rw [List.getElem?_set_ne (by omega), List.getElem?_set_self (by simp; omega)]
  · rw [List.getElem?_set_self (by simp; omega)]

theorem mfm_first_ok {n : ℕ} (hn : 3 ≤ n) :
    (∀ c, (mfmProptoOps coef).existing ⟨γ, none⟩ n 2 c =
      (mfmProptoOps coef).existing (firstTable coef γ n) n 2 c) ∧
    (mfmProptoOps coef).new ⟨γ, none⟩ n 2 = (mfmProptoOps coef).new (firstTable coef γ n) n 2 := by
  have a1 : getV coef ⟨γ, none⟩ 2 n = .ok (coef 2 (n + 1),
      ⟨γ, some ((List.replicate (n + 1) none).set 2 (some (coef 2 (n + 1))))⟩) := by
    simp [getV, vget_ok (show (List.replicate (n + 1) (none : Option ℝ))[2]? = some none by
      rw [List.getElem?_replicate, if_pos (by omega)])]
  have a2 : getV coef ⟨γ, some ((List.replicate (n + 1) none).set 2 (some (coef 2 (n + 1))))⟩ 3 n =
      .ok (coef 3 (n + 1), firstTable coef γ n) := by
    simp [getV, firstTable, vget_ok (show ((List.replicate (n + 1) (none : Option ℝ)).set 2
        (some (coef 2 (n + 1))))[3]? = some none by
      rw [List.getElem?_set_ne (by omega), List.getElem?_replicate, if_pos (by omega)])]
  have b1 : getV coef (firstTable coef γ n) 2 n = .ok (coef 2 (n + 1), firstTable coef γ n) := by
    simp only [getV, firstTable, Option.getD_some]
    rw [vget_ok (a := some (coef 2 (n + 1))) (by
      rw [List.getElem?_set_ne (by omega), List.getElem?_set_self (by simp; omega)]), ok_bind]
  have b2 : getV coef (firstTable coef γ n) 3 n = .ok (coef 3 (n + 1), firstTable coef γ n) := by
    simp only [getV, firstTable, Option.getD_some]
    rw [vget_ok (a := some (coef 3 (n + 1))) (by rw [List.getElem?_set_self (by simp; omega)]), ok_bind]
  refine ⟨fun c => ?_, ?_⟩ <;>
    simp only [mfmProptoOps, mfmLogMassExisting, mfmLogMassNew, a1, a2, b1, b2, ok_bind]

theorem mfm_first_ub {n : ℕ} (hn : n ≤ 2) :
    (∀ c, (mfmProptoOps coef).existing ⟨γ, none⟩ n 2 c = .error .ub) ∧
    (mfmProptoOps coef).new ⟨γ, none⟩ n 2 = .error .ub := by
  by_cases h2 : n = 2
  · subst h2
    constructor <;> simp [mfmProptoOps, mfmLogMassExisting, mfmLogMassNew, getV, vget, List.replicate]
  · have : (List.replicate (n + 1) (none : Option ℝ))[2]? = none := by
      rw [List.getElem?_eq_none]; simp; omega
    constructor <;> simp [mfmProptoOps, mfmLogMassExisting, mfmLogMassNew, getV, vget, this]

omit [AddCommGroup G] in
theorem scanRows_length {n : ℕ} {al : List ℕ} {i j : ℕ} (hi : i < n) (hj : j < n) (hij : i ≠ j) :
    (clusterOf n al i ∪ clusterOf n al j).card = (scanRows n al i j).length + 2 := by
  have hr := scanRows_ok (n := n) (al := al) hij
  rw [← scanRows_union hi hj, Finset.card_insert_of_notMem, Finset.card_insert_of_notMem,
    List.toFinset_card_of_nodup hr.nodup]
  · simpa using hr.hj
  · simpa using ⟨hij, hr.hi⟩

/-- C142 fails for the mixture of finite mixtures: if the clusters of the two rows of the first move hold
three rows together, or if there are two rows of data, then the first move reads outside of the table of
coefficients, whatever else is drawn. -/
theorem c142_finite_mixture_move_violated (E : Env G H Θ) (pred : H → ℕ → ℝ)
    (U : MFMState → Alg G H Θ → SMNoise → MFMState) (nRestr n : ℕ) (hk : E.kind ≠ .other)
    (s : Alg G H Θ) (hs : Consistent E.contrib n s) (i j : ℕ) (hi : i < n) (hj : j < n) (hij : i ≠ j)
    (hc : (clusterOf n s.alloc i ∪ clusterOf n s.alloc j).card = 3 ∨ n = 2)
    (z : MHNoise) (hz : pickPair n z.first z.second = .ok (i, j)) (Z : SMNoise) (mhs : List MHNoise)
    (hZ : Z.mh = z :: mhs) (zs : List SMNoise) :
    (Z :: zs).foldlM (stepM E pred (mfmProptoOps coef) U nRestr n) (⟨γ, none⟩, s) = .error .ub := by
  rw [scanRows_length hi hj hij] at hc
  have h : mhUpdateM E pred (mfmProptoOps coef) nRestr n (⟨γ, none⟩, s) z = .error .ub := by
    refine mhUpdateM_error hk pred (mfmProptoOps coef) nRestr hs hi hj hij z hz (fun h => ?_) (fun h => ?_)
    · have h0 := List.length_pos_of_ne_nil h
      refine (mfm_first_ub ?_).1
      have : (clusterOf n s.alloc i ∪ clusterOf n s.alloc j).card ≤ n := by
        refine (Finset.card_le_card (Finset.union_subset (Finset.filter_subset _ _)
          (Finset.filter_subset _ _))).trans (by simp)
      rw [scanRows_length hi hj hij] at this
      omega
    · refine (mfm_first_ub ?_).2
      rw [h] at hc
      simp at hc
      omega
  simp only [List.foldlM_cons, stepM, hZ, h, error_bind]

/-- The first move, from a new mixing object, on the rows of clusters with `C` rows together, where `C` is
not three and there are three rows of data or more: the table is made, with `T` entries for `T` rows, and
the moves are those with entries two and three of that table. -/
theorem first_moves (E : Env G H Θ) (pred : H → ℕ → ℝ) (nRestr n : ℕ) (hn : 3 ≤ n) (hk : E.kind ≠ .other)
    (s : Alg G H Θ) (hs : MarginalOk E.contrib n s) (i j : ℕ) (hi : i < n) (hj : j < n) (hij : i ≠ j)
    (T : ℕ) (hT : T = if (clusterOf n s.alloc i ∪ clusterOf n s.alloc j).card = 2 then n + 1
      else (clusterOf n s.alloc i ∪ clusterOf n s.alloc j).card) (hT3 : T ≠ 3)
    (z : MHNoise) (hz : pickPair n z.first z.second = .ok (i, j)) (mhs : List MHNoise) :
    ∃ mx' s', (z :: mhs).foldlM (mhUpdateM E pred (mfmProptoOps coef) nRestr n) (⟨γ, none⟩, s) =
        .ok (mx', s') ∧
      (z :: mhs).foldlM (mhUpdate E (mfmTableScores pred γ (coef 3 T / coef 2 T)) nRestr n) s = .ok s' ∧
      Settled γ T (coef 2 T) (coef 3 T) mx' ∧ 4 ≤ T ∧ MarginalOk E.contrib n s' := by
  rw [scanRows_length hi hj hij] at hT
  obtain ⟨t, rfl⟩ : ∃ t, T = t + 1 := ⟨T - 1, by split_ifs at hT <;> omega⟩
  have ht : 3 ≤ t := by
    split_ifs at hT with h <;> omega
  have hsw : mhUpdateM E pred (mfmProptoOps coef) nRestr n (⟨γ, none⟩, s) z =
      mhUpdateM E pred (mfmProptoOps coef) nRestr n (firstTable coef γ t, s) z := by
    refine mhUpdateM_swap hk pred (mfmProptoOps coef) nRestr hs.cons hi hj hij z hz (fun h => ?_) (fun h => ?_)
    · have h0 := List.length_pos_of_ne_nil h
      have e : (scanRows n s.alloc i j).length + 1 = t := by
        rw [if_neg (by omega)] at hT; omega
      rw [e]
      exact (mfm_first_ok ht).1
    · have e : n = t := by
        rw [h, if_pos (by simp)] at hT; omega
      rw [e]
      exact (mfm_first_ok ht).2
  obtain ⟨s', e', h'⟩ := foldlM_list_inv
    (mhUpdate E (mfmTableScores pred γ (coef 3 (t + 1) / coef 2 (t + 1))) nRestr n)
    (MarginalOk E.contrib n) (fun z _ h => mhUpdate_ok _ nRestr hk (by omega) z h) (z :: mhs) s hs
  obtain ⟨mx', m', hP'⟩ := foldlM_follow (g := mhUpdateM E pred (mfmProptoOps coef) nRestr n)
    (fun _ _ _ _ hP e => mhUpdateM_follow (mfm_answers pred (by omega : 4 ≤ t + 1) _ _) hP e) (z :: mhs)
    (firstTable_settled (γ := γ) (coef := coef) ht) e'
  refine ⟨mx', s', ?_, e', hP', by omega, h'⟩
  rw [← m', List.foldlM_cons, List.foldlM_cons, hsw]

/-- **C142, mixture of finite mixtures, which numbers are used.** The moves of the first iteration use the
coefficients for the number of rows of the clusters of the first pair, not for the number of rows of the
data; if both rows are alone, those for one row more than there are. (By `c83_finite_mixture_violated` a
split from two clusters then does not balance, unless that number is the number of rows.) -/
theorem c142_finite_mixture_coefficients (E : Env G H Θ) (pred : H → ℕ → ℝ) (nRestr n : ℕ) (hn : 3 ≤ n)
    (hk : E.kind ≠ .other) (s : Alg G H Θ) (hs : Consistent E.contrib n s)
    (hne : NoEmptyOn (Finset.range n) s) (hca : ∀ o ∈ s.clus, o.saved = true → o.ph.isSome)
    (i j : ℕ) (hi : i < n) (hj : j < n) (hij : i ≠ j)
    (T : ℕ) (hT : T = if (clusterOf n s.alloc i ∪ clusterOf n s.alloc j).card = 2 then n + 1
      else (clusterOf n s.alloc i ∪ clusterOf n s.alloc j).card) (hT3 : T ≠ 3)
    (z : MHNoise) (hz : pickPair n z.first z.second = .ok (i, j)) (mhs : List MHNoise) :
    ∃ mx' s', (z :: mhs).foldlM (mhUpdateM E pred (mfmProptoOps coef) nRestr n) (⟨γ, none⟩, s) =
        .ok (mx', s') ∧
      (z :: mhs).foldlM (mhUpdate E (mfmTableScores pred γ (coef 3 T / coef 2 T)) nRestr n) s = .ok s' := by
  obtain ⟨mx', s', h1, h2, -⟩ := first_moves (coef := coef) (γ := γ) E pred nRestr n hn hk s ⟨hs, hne, hca⟩
    i j hi hj hij T hT hT3 z hz mhs
  exact ⟨mx', s', h1, h2⟩

theorem settled_datum_ub {E : Env G H Θ} {n i : ℕ} {T : ℕ} {v2 v3 : ℝ} {mx : MFMState} {s : Alg G H Θ}
    (hk : E.kind ≠ .other) (hmx : Settled γ T v2 v3 mx) (hs : MarginalOk E.contrib n s)
    (hi : i < n) (hT : T ≤ (otherLabels n s.alloc i).card + 1) (rc rd : ℕ) :
    massDatum E (mfmProptoOps coef) true n (mx, s) i rc rd = .error .ub := by
  obtain ⟨s1, c, o, hdet, hd, -⟩ := detach_ok (upd := true) (fun _ => hk) hs.cons.on (Finset.mem_range.mpr hi)
  rw [← detached_length hd hs.noEmpty] at hT
  have hu := (settled_two (coef := coef) hmx s1.clus.length (n - 1)).1 hT
  have : priorMasses (mfmProptoOps coef) n 1 mx s1 = .error .ub := by
    unfold priorMasses
    cases hc : s1.clus with
    | nil =>
      rw [hc] at hu
      simp only [List.map_nil, existingMasses, ok_bind, newMasses]
      rw [(hu 0).2, error_bind, error_bind]
    | cons o os =>
      rw [hc] at hu
      simp only [List.map_cons, existingMasses]
      rw [(hu _).1, error_bind, error_bind]
  simp only [massDatum, hdet, ok_bind, this, error_bind]

/-- C142 fails for the mixture of finite mixtures with full scans: if the two rows of the first move are not
both alone, then there are labels for which the first full scan reads outside of the table of coefficients,
for all else that is drawn and any number of moves before it. -/
theorem c142_finite_mixture_scan_violated (E : Env G H Θ) (pred : H → ℕ → ℝ)
    (U : MFMState → Alg G H Θ → SMNoise → MFMState) (nRestr n : ℕ) (hk : E.kind ≠ .other)
    (s : Alg G H Θ) (hs : Consistent E.contrib n s) (hne : NoEmptyOn (Finset.range n) s)
    (hca : ∀ o ∈ s.clus, o.saved = true → o.ph.isSome) (i j : ℕ) (hi : i < n) (hj : j < n) (hij : i ≠ j)
    (hc : (clusterOf n s.alloc i ∪ clusterOf n s.alloc j).card ≠ 2)
    (z : MHNoise) (hz : pickPair n z.first z.second = .ok (i, j)) (Z : SMNoise) (mhs : List MHNoise)
    (hZ : Z.mh = z :: mhs) (ω : ℕ → ℕ × ℕ) (ωs : List (ℕ → ℕ × ℕ)) :
    ∃ rc : ℕ → ℕ, ∀ zs : List SMNoise,
      (({ Z with full := (fun i => (rc i, (ω i).2)) :: ωs } : SMNoise) :: zs).foldlM
        (stepM E pred (mfmProptoOps coef) U nRestr n) (⟨γ, none⟩, s) = .error .ub := by
  obtain ⟨T, hT⟩ : ∃ T, T = (clusterOf n s.alloc i ∪ clusterOf n s.alloc j).card := ⟨_, rfl⟩
  have hTn : T ≤ n := by
    rw [hT]
    exact (Finset.card_le_card (Finset.union_subset (Finset.filter_subset _ _)
      (Finset.filter_subset _ _))).trans (by simp)
  have hT2 : 2 ≤ T := by rw [hT, scanRows_length hi hj hij]; omega
  by_cases hT3 : T = 3
  · refine ⟨fun _ => 0, fun zs => ?_⟩
    exact c142_finite_mixture_move_violated E pred U nRestr n hk s hs i j hi hj hij (.inl (by omega)) z hz
      { Z with full := (fun i => (0, (ω i).2)) :: ωs } mhs hZ zs
  obtain ⟨mx1, s1, m1, -, hP1, hT4, hs1⟩ := first_moves (coef := coef) (γ := γ) E pred nRestr n (by omega) hk
    s ⟨hs, hne, hca⟩ i j hi hj hij T (by rw [if_neg hc, hT]) hT3 z hz mhs
  obtain ⟨rc, h⟩ := sweep_ub (n := n)
    (fun x i r => massDatum E (mfmProptoOps coef) true n x i r (ω i).2) (fun x => x.2.alloc)
    (fun x => Settled γ T (coef 2 T) (coef 3 T) x.1 ∧ MarginalOk E.contrib n x.2) (by
      rintro ⟨mx, s⟩ i r ⟨h1, h2⟩ hi hal
      refine settled_datum_ub hk h1 h2 hi ?_ r _
      have : (otherLabels n s.alloc i).card = n - 1 := others_alone hi hal
      show T ≤ (otherLabels n s.alloc i).card + 1
      omega) (by
      rintro ⟨mx, s⟩ i ⟨h1, h2⟩ hi
      dsimp only at h1 h2 ⊢
      refine ⟨(otherLabels n s.alloc i).card, ?_⟩
      by_cases hc : T ≤ (otherLabels n s.alloc i).card + 1
      · exact .inl (settled_datum_ub hk h1 h2 hi hc _ _)
      · obtain ⟨mx', s', e, e', hr'⟩ := massDatum_keep (M := mfmProptoOps coef) (by omega) hk h2 hi
          (mfm_answersAt (by omega) _ _ _) h1 (otherLabels n s.alloc i).card (ω i).2
        obtain ⟨s2, e2, hre, hne2⟩ := neal2Datum_ok (upd := true) (otherLabels n s.alloc i).card
          (ω i).2 (by omega) (fun _ => hk) h2.cons h2.noEmpty h2.caches hi
        obtain ⟨s3, e3, hm⟩ := c68_neal2_neal3_move E true n (by omega) hk s h2.cons h2.noEmpty h2.caches
          i hi (otherLabels n s.alloc i).card (ω i).2
        cases e'.symm.trans e2
        cases e'.symm.trans e3
        refine .inr ⟨_, e, ⟨hr', hre.cons, hne2, hre.caches⟩,
          fun x hx y hy hxi hyi => hre.co x hx y hy hxi hyi, ?_⟩
        exact (hm.new (by rw [Nat.mod_eq_of_lt (Nat.lt_succ_self _)])).1) (by omega) (mx1, s1)
      ⟨hP1, hs1⟩
  refine ⟨rc, fun zs => ?_⟩
  have : massAllocations E (mfmProptoOps coef) true n (fun i => (rc i, (ω i).2)) (mx1, s1) =
      .error .ub := h
  simp only [List.foldlM_cons, stepM, hZ]
  rw [← List.foldlM_cons, m1]
  simp only [ok_bind, this, error_bind]

/-- **C142, mixture of finite mixtures, what holds.** With three rows of data or more, if the two rows of the
first move are both alone, no run fails, with any numbers of moves and of full scans, and each iteration is
the one with entries two and three of the table for one row more than there are. -/
theorem c142_finite_mixture_partial (E : Env G H Θ) (pred : H → ℕ → ℝ) (nRestr n : ℕ) (hn : 3 ≤ n)
    (hk : E.kind ≠ .other) (s : Alg G H Θ) (hs : Consistent E.contrib n s)
    (hne : NoEmptyOn (Finset.range n) s) (hca : ∀ o ∈ s.clus, o.saved = true → o.ph.isSome)
    (i j : ℕ) (hi : i < n) (hj : j < n) (hij : i ≠ j)
    (hc : (clusterOf n s.alloc i ∪ clusterOf n s.alloc j).card = 2)
    (z : MHNoise) (hz : pickPair n z.first z.second = .ok (i, j)) (Z : SMNoise) (mhs : List MHNoise)
    (hZ : Z.mh = z :: mhs) (zs : List SMNoise) :
    ∃ mx' s', (Z :: zs).foldlM (stepM E pred (mfmProptoOps coef) (fun mx _ _ => mx) nRestr n)
        (⟨γ, none⟩, s) = .ok (mx', s') ∧
      (Z :: zs).foldlM (step E (mfmTableScores pred γ (coef 3 (n + 1) / coef 2 (n + 1))) nRestr n) s =
        .ok s' ∧ Consistent E.contrib n s' ∧ NoEmptyOn (Finset.range n) s' := by
  have hc' := hc
  rw [scanRows_length hi hj hij] at hc'
  have hnil : scanRows n s.alloc i j = [] := List.eq_nil_of_length_eq_zero (by omega)
  have hsw : mhUpdateM E pred (mfmProptoOps coef) nRestr n (⟨γ, none⟩, s) z =
      mhUpdateM E pred (mfmProptoOps coef) nRestr n (firstTable coef γ n, s) z :=
    mhUpdateM_swap hk pred (mfmProptoOps coef) nRestr hs hi hj hij z hz (fun h => absurd hnil h)
      (fun _ => (mfm_first_ok hn).2)
  have hst : stepM E pred (mfmProptoOps coef) (fun mx _ _ => mx) nRestr n (⟨γ, none⟩, s) Z =
      stepM E pred (mfmProptoOps coef) (fun mx _ _ => mx) nRestr n (firstTable coef γ n, s) Z := by
    simp only [stepM, hZ, List.foldlM_cons, hsw]
  have key : ∀ (l : List SMNoise) mx s, Settled γ (n + 1) (coef 2 (n + 1)) (coef 3 (n + 1)) mx →
      MarginalOk E.contrib n s → ∃ mx' s',
        l.foldlM (stepM E pred (mfmProptoOps coef) (fun mx _ _ => mx) nRestr n) (mx, s) = .ok (mx', s') ∧
        l.foldlM (step E (mfmTableScores pred γ (coef 3 (n + 1) / coef 2 (n + 1))) nRestr n) s = .ok s' ∧
        MarginalOk E.contrib n s' := by
    intro l
    induction l with
    | nil => exact fun mx s _ hs => ⟨mx, s, rfl, rfl, hs⟩
    | cons a l ih =>
      intro mx s hP hs
      obtain ⟨mx1, s1, a1, a2, a3, a4⟩ := stepM_follow
        (mfm_answers pred (by omega : 4 ≤ n + 1) (coef 2 (n + 1)) (coef 3 (n + 1)))
        hk nRestr (by omega) (fun k _ h => mfm_answersAt (by omega) _ _ _) (fun mx _ _ => mx) a hs hP
      obtain ⟨mx2, s2, b1, b2, b3⟩ := ih mx1 s1 a3 a4
      exact ⟨mx2, s2, by rw [List.foldlM_cons]; erw [a1]; exact b1,
        by rw [List.foldlM_cons, a2]; exact b2, b3⟩
  obtain ⟨mx', s', h1, h2, h3⟩ := key (Z :: zs) _ s (firstTable_settled hn) ⟨hs, hne, hca⟩
  refine ⟨mx', s', ?_, h2, h3.cons, h3.noEmpty⟩
  rw [← h1, List.foldlM_cons, List.foldlM_cons, hst]

end mfm

/-! ## Examples: NNIG hierarchy, initialized by the code -/

/-- Initialized with one cluster: the clusters of any two rows hold all rows together. -/
theorem one_cluster_union {E : Env G H Θ} {n : ℕ} {s : Alg G H Θ} (hs : Consistent E.contrib n s)
    (hlen : s.clus.length = 1) (i j : ℕ) (hi : i < n) :
    (clusterOf n s.alloc i ∪ clusterOf n s.alloc j).card = n := by
  have h0 : ∀ x < n, s.alloc[x]? = some 0 := by
    intro x hx
    obtain ⟨a, ha, hal⟩ := hs.on.labelled x (Finset.mem_range.mpr hx)
    have : a = 0 := by omega
    rw [ha, this]
  have : clusterOf n s.alloc i ∪ clusterOf n s.alloc j = Finset.range n := by
    apply subset_antisymm
    · exact Finset.union_subset (Finset.filter_subset _ _) (Finset.filter_subset _ _)
    · intro x hx
      rw [Finset.mem_union, mem_clusterOf]
      exact .inl ⟨Finset.mem_range.mp hx, by rw [h0 x (Finset.mem_range.mp hx), h0 i hi]⟩
  rw [this, Finset.card_range]

/-- Initialized with as many clusters as rows: all rows are alone. -/
theorem all_alone_union {E : Env G H Θ} {n : ℕ} {s : Alg G H Θ} (hs : Consistent E.contrib n s)
    (hne : NoEmptyOn (Finset.range n) s) (hlen : s.clus.length = n) {i j : ℕ} (hi : i < n) (hj : j < n)
    (hij : i ≠ j) : (clusterOf n s.alloc i ∪ clusterOf n s.alloc j).card = 2 := by
  have hnd : s.alloc.Nodup := by
    have h := labels_eq_range hs hne
    have hc : s.alloc.dedup.length = s.alloc.length := by
      rw [← List.card_toFinset, h, Finset.card_range, hlen, hs.len]
    rw [← (List.dedup_sublist s.alloc).eq_of_length hc]
    exact List.nodup_dedup _
  have h1 : ∀ i < n, clusterOf n s.alloc i = {i} := by
    intro i hi
    ext x
    rw [mem_clusterOf, Finset.mem_singleton]
    constructor
    · rintro ⟨hx, e⟩
      exact (List.getElem?_inj (by rw [hs.len]; exact hx) hnd).mp e
    · rintro rfl; exact ⟨hi, rfl⟩
  rw [h1 i hi, h1 j hj, Finset.card_union_of_disjoint (by simpa using hij)]
  rfl

example (y : ℕ → ℝ) (draw : NIG → ℕ → UniLS) (hyp : NIG → List (UniLS × ℤ) → ℕ → NIG) (zi : InitNoise)
    (o : Hier (ℝ × ℝ) NIG UniLS) (ho : o.saved = false) (θ0 : UniLS) (coef : ℕ → ℕ → ℝ) (z : MHNoise)
    (ω : ℕ → ℕ × ℕ) (uv : ℕ → ℕ) (u : ℕ) :
    -- both processes, two clusters, three rows
    (∃ s s' t', initAlloc (nnigEnv y draw hyp) true 2 3 ⟨0, 1, 2, 1⟩ θ0 zi [o] = .ok s ∧
      stepM (nnigEnv y draw hyp) (fun h x => nnigMargLpdf h (y x)) dpProptoOps (fun mx _ _ => mx) 5 3
        (⟨2, 0⟩, s) ⟨[z], [ω], uv, u⟩ = .ok (⟨2, 0⟩, s') ∧
      stepM (nnigEnv y draw hyp) (fun h x => nnigMargLpdf h (y x)) pyProptoOps (fun mx _ _ => mx) 5 3
        (⟨1, 1 / 2⟩, s) ⟨[z], [ω], uv, u⟩ = .ok (⟨1, 1 / 2⟩, t')) ∧
    -- mixture of finite mixtures, three rows in one cluster: the first move fails
    (∃ s, initAlloc (nnigEnv y draw hyp) true 1 3 ⟨0, 1, 2, 1⟩ θ0 zi [o] = .ok s ∧
      [(⟨[{ z with first := 0, second := 0 }], [ω], uv, u⟩ : SMNoise)].foldlM
        (stepM (nnigEnv y draw hyp) (fun h x => nnigMargLpdf h (y x)) (mfmProptoOps coef)
          (fun mx _ _ => mx) 5 3) (⟨1, none⟩, s) = .error .ub) ∧
    -- four rows in one cluster: the moves use the coefficients for four rows, and some full scan fails
    (∃ s mx' s', ∃ rc : ℕ → ℕ, initAlloc (nnigEnv y draw hyp) true 1 4 ⟨0, 1, 2, 1⟩ θ0 zi [o] = .ok s ∧
      [({ z with first := 0, second := 0 } : MHNoise)].foldlM (mhUpdateM (nnigEnv y draw hyp)
          (fun h x => nnigMargLpdf h (y x)) (mfmProptoOps coef) 5 4) (⟨1, none⟩, s) = .ok (mx', s') ∧
      [({ z with first := 0, second := 0 } : MHNoise)].foldlM (mhUpdate (nnigEnv y draw hyp)
          (mfmTableScores (fun h x => nnigMargLpdf h (y x)) 1 (coef 3 4 / coef 2 4)) 5 4) s = .ok s' ∧
      [(⟨[{ z with first := 0, second := 0 }], [fun i => (rc i, (ω i).2)], uv, u⟩ : SMNoise)].foldlM
        (stepM (nnigEnv y draw hyp) (fun h x => nnigMargLpdf h (y x)) (mfmProptoOps coef)
          (fun mx _ _ => mx) 5 4) (⟨1, none⟩, s) = .error .ub) ∧
    -- three rows, all alone: no failure
    (∃ s mx' s', initAlloc (nnigEnv y draw hyp) true 3 3 ⟨0, 1, 2, 1⟩ θ0 zi [o] = .ok s ∧
      [(⟨[{ z with first := 0, second := 0 }], [ω], uv, u⟩ : SMNoise)].foldlM
        (stepM (nnigEnv y draw hyp) (fun h x => nnigMargLpdf h (y x)) (mfmProptoOps coef)
          (fun mx _ _ => mx) 5 3) (⟨1, none⟩, s) = .ok (mx', s')) := by
  have hk : (nnigEnv y draw hyp).kind ≠ .other := by simp [nnigEnv]
  have init : ∀ K n, 0 < K → K ≤ n → _ := fun K n h1 h2 => initAlloc_ok (E := nnigEnv y draw hyp)
    (upd := true) (K := K) (n := n) (h0 := ⟨0, 1, 2, 1⟩) (θ0 := θ0) zi (o := o) (by simp [CanSave, nnigEnv])
    h1 h2 (by simp [Hier.CacheOk, ho])
  refine ⟨?_, ?_, ?_, ?_⟩
  · obtain ⟨s, e, hs, -⟩ := init 2 3 (by omega) (by omega)
    obtain ⟨s', h1, -⟩ := (c142_dirichlet (nnigEnv y draw hyp) (fun h x => nnigMargLpdf h (y x))
      (fun mx _ _ => mx) 5 3 (by omega) hk s hs.cons hs.noEmpty hs.caches ⟨2, 0⟩).1 ⟨[z], [ω], uv, u⟩
    obtain ⟨t', h2, -⟩ := (c142_pitman_yor (nnigEnv y draw hyp) (fun h x => nnigMargLpdf h (y x))
      (fun mx _ _ => mx) 5 3 (by omega) hk s hs.cons hs.noEmpty hs.caches ⟨1, 1 / 2⟩).1 ⟨[z], [ω], uv, u⟩
    exact ⟨s, s', t', e, h1, h2⟩
  · obtain ⟨s, e, hs, hlen, -⟩ := init 1 3 (by omega) (by omega)
    exact ⟨s, e, c142_finite_mixture_move_violated (nnigEnv y draw hyp) _ _ 5 3 hk s hs.cons 0 1 (by omega)
      (by omega) (by omega) (.inl (one_cluster_union hs.cons hlen 0 1 (by omega))) _ rfl _ [] rfl []⟩
  · obtain ⟨s, e, hs, hlen, -⟩ := init 1 4 (by omega) (by omega)
    have hc := one_cluster_union hs.cons hlen 0 1 (by omega)
    obtain ⟨mx', s', h1, h2⟩ := c142_finite_mixture_coefficients (coef := coef) (γ := 1)
      (nnigEnv y draw hyp) (fun h x => nnigMargLpdf h (y x)) 5 4 (by omega) hk s hs.cons hs.noEmpty hs.caches
      0 1 (by omega) (by omega) (by omega) 4 (by rw [hc]; rfl) (by omega)
      { z with first := 0, second := 0 } rfl []
    obtain ⟨rc, h3⟩ := c142_finite_mixture_scan_violated (coef := coef) (γ := 1) (nnigEnv y draw hyp)
      (fun h x => nnigMargLpdf h (y x)) (fun mx _ _ => mx) 5 4 hk s hs.cons hs.noEmpty hs.caches 0 1
      (by omega) (by omega) (by omega) (by rw [hc]; omega) { z with first := 0, second := 0 } rfl
      ⟨[{ z with first := 0, second := 0 }], [], uv, u⟩ [] rfl ω []
    exact ⟨s, mx', s', rc, e, h1, h2, h3 []⟩
  · obtain ⟨s, e, hs, hlen, -⟩ := init 3 3 (by omega) (by omega)
    obtain ⟨mx', s', h1, -⟩ := c142_finite_mixture_partial (coef := coef) (γ := 1) (nnigEnv y draw hyp)
      (fun h x => nnigMargLpdf h (y x)) 5 3 (by omega) hk s hs.cons hs.noEmpty hs.caches 0 1 (by omega)
      (by omega) (by omega) (all_alone_union hs.cons hs.noEmpty hlen (by omega) (by omega) (by omega))
      { z with first := 0, second := 0 } rfl ⟨[{ z with first := 0, second := 0 }], [ω], uv, u⟩ [] rfl []
    exact ⟨s, mx', s', e, h1⟩

end Bayesmix.SplitMerge
