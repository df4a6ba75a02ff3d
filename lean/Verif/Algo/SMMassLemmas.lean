import Verif.Algo.SMMass
import Verif.Algo.PropsSMFinite
import Verif.Algo.PropsMassRun
import Verif.Hier.ShareLemmas

/-!
# The split-merge sampler that asks for its masses, next to the one with given masses
-/

namespace Bayesmix.SplitMerge
open Bayesmix.Density Bayesmix.Mixing
open Bayesmix.Hierarchies (bind_eq_ok)

variable {G H Θ σ : Type} [AddCommGroup G]

/-- In the states `P` the mixing answers the questions of the moves with the numbers `S`, and stays in such
a state. -/
structure Answers (M : MixOps σ) (S : Scores H) (P : σ → Prop) : Prop where
  existing : ∀ mx n (c : ℤ), P mx → ∃ v mx', M.existing mx n 2 c.toNat = .ok (v, mx') ∧ P mx' ∧
    v.toReal = S.exist n 2 c
  new : ∀ mx n, P mx → ∃ v mx', M.new mx n 2 = .ok (v, mx') ∧ P mx' ∧ v.toReal = S.fresh n 2

omit [AddCommGroup G] in
theorem foldlM_follow {X α : Type} {f : X → α → Except Fault X} {g : σ × X → α → Except Fault (σ × X)}
    {P : σ → Prop} (h : ∀ a mx x x', P mx → f x a = .ok x' → ∃ mx', g (mx, x) a = .ok (mx', x') ∧ P mx')
    (l : List α) {mx : σ} {x x' : X} (hP : P mx) (e : l.foldlM f x = .ok x') :
    ∃ mx', l.foldlM g (mx, x) = .ok (mx', x') ∧ P mx' := by
  induction l generalizing x mx with
  | nil =>
    simp only [List.foldlM_nil] at e ⊢
    cases e
    exact ⟨mx, rfl, hP⟩
  | cons a l ih =>
    rw [List.foldlM_cons, bind_eq_ok] at e
    obtain ⟨t, ht, e⟩ := e
    obtain ⟨mx1, h1, hP1⟩ := h a mx x t hP ht
    obtain ⟨mx', h', hP'⟩ := ih hP1 e
    exact ⟨mx', by rw [List.foldlM_cons, h1, ok_bind]; exact h', hP'⟩

variable {M : MixOps σ} {S : Scores H} {P : σ → Prop}

theorem restrictedStepM_follow (hA : Answers M S P) {E : Env G H Θ} {s : Alg G H Θ} {first : ℕ}
    {ret toOrig : Bool} {r : ℕ → ℕ} {mx : σ} {x y : Launch G H Θ × ℝ} {k : ℕ} (hP : P mx)
    (e : restrictedStep E S s first ret toOrig r x k = .ok y) :
    ∃ mx', restrictedStepM E S.pred M s first ret toOrig r (mx, x) k = .ok (mx', y) ∧ P mx' := by
  obtain ⟨L, a⟩ := x
  have key : ∃ c x o p0 p1 b lab o', vget L.lab k = .ok c ∧ vget L.rows k = .ok x ∧
      (L.vals c).removeDatum E s.hyp true x = .ok o ∧
      condPred E S s.hyp (Function.update L.vals c o false) x = .ok p0 ∧
      condPred E S s.hyp (Function.update L.vals c o true) x = .ok p1 ∧
      (if toOrig then (do
          let a ← vget s.alloc x
          let b ← vget s.alloc first
          .ok (decide (a ≠ b)))
        else .ok (decide (r k % 2 = 1)) : Except Fault Bool) = .ok b ∧
      vset L.lab k b = .ok lab ∧
      (Function.update L.vals c o b).addDatum E s.hyp true x = .ok o' ∧
      y = ({ L with lab := lab, vals := Function.update (Function.update L.vals c o) b o' },
        if ret then a + logProba (fun b =>
          S.exist (L.rows.length + 2 - 1) 2 (Function.update L.vals c o b).card +
            (if b then p1 else p0)) b else a) := by
    cases toOrig
    · simp only [restrictedStep, Bool.false_eq_true, if_false, ok_bind, bind_eq_ok] at e ⊢
      obtain ⟨c, hc, x, hx, o, ho, p0, hp0, p1, hp1, lab, hlab, o', ho', e⟩ := e
      exact ⟨c, x, o, p0, p1, _, lab, o', hc, hx, ho, hp0, hp1, rfl, hlab, ho', (Except.ok.inj e).symm⟩
    · simp only [restrictedStep, if_true, bind_eq_ok] at e ⊢
      obtain ⟨c, hc, x, hx, o, ho, p0, hp0, p1, hp1, b, hb, lab, hlab, o', ho', e⟩ := e
      exact ⟨c, x, o, p0, p1, b, lab, o', hc, hx, ho, hp0, hp1, hb, hlab, ho', (Except.ok.inj e).symm⟩
  obtain ⟨c, x, o, p0, p1, b, lab, o', hc, hx, ho, hp0, hp1, hb, hlab, ho', rfl⟩ := key
  obtain ⟨v0, mx0, h0, hP0, e0⟩ := hA.existing mx (L.rows.length + 2 - 1)
    (Function.update L.vals c o false).card hP
  obtain ⟨v1, mx1, h1, hP1, e1⟩ := hA.existing mx0 (L.rows.length + 2 - 1)
    (Function.update L.vals c o true).card hP0
  refine ⟨mx1, ?_, hP1⟩
  have hp0' : condPred E (predOnly S.pred) s.hyp (Function.update L.vals c o false) x = .ok p0 := hp0
  have hp1' : condPred E (predOnly S.pred) s.hyp (Function.update L.vals c o true) x = .ok p1 := hp1
  have hl : (fun b : Bool => (if b then v1 else v0).toReal + (if b then p1 else p0)) =
      fun b => S.exist (L.rows.length + 2 - 1) 2 (Function.update L.vals c o b).card +
        (if b then p1 else p0) := by
    funext b
    cases b
    · simp [e0]
    · simp [e1]
  cases toOrig
  · simp only [Bool.false_eq_true, if_false] at hb
    cases hb
    simp only [restrictedStepM, hc, hx, ho, h0, h1, hp0', hp1', hlab, ho', hl, ok_bind,
      Bool.false_eq_true, if_false]
  · simp only [if_true] at hb
    simp only [restrictedStepM, hc, hx, ho, h0, h1, hp0', hp1', hl, ok_bind, if_true]
    rw [hb, ok_bind, hlab, ok_bind, ho', ok_bind]

theorem restrictedGsM_follow (hA : Answers M S P) {E : Env G H Θ} {s : Alg G H Θ} {first : ℕ}
    {ret toOrig : Bool} {r : ℕ → ℕ} {mx : σ} {L : Launch G H Θ} {y : Launch G H Θ × ℝ} (hP : P mx)
    (e : restrictedGs E S s first ret toOrig r L = .ok y) :
    ∃ mx', restrictedGsM E S.pred M s first ret toOrig r (mx, L) = .ok (mx', y) ∧ P mx' :=
  foldlM_follow (fun _ _ _ _ hP e => restrictedStepM_follow hA hP e) _ hP e

omit [AddCommGroup G] in
theorem ratioAddM_follow [Add G] (hA : Answers M S P) {E : Env G H Θ} {h : H} {n : ℕ} {c : Bool} {mx : σ}
    {R R' : Ratios G H Θ} {x : ℕ} (hP : P mx) (e : ratioAdd E S h n c R x = .ok R') :
    ∃ mx', ratioAddM E S.pred M h n c (mx, R) x = .ok (mx', R') ∧ P mx' := by
  simp only [ratioAdd, bind_eq_ok] at e
  obtain ⟨pd, hpd, od, hod, pu, hpu, ou, hou, e⟩ := e
  obtain ⟨v0, mx0, h0, hP0, e0⟩ := hA.existing mx n (R.div c).card hP
  obtain ⟨v1, mx1, h1, hP1, e1⟩ := hA.existing mx0 n R.uni.card hP0
  have hpd' : condPred E (predOnly S.pred) h (R.div c) x = .ok pd := hpd
  have hpu' : condPred E (predOnly S.pred) h R.uni x = .ok pu := hpu
  refine ⟨mx1, ?_, hP1⟩
  simp only [ratioAddM, hpd', h0, hod, hpu', h1, hou, ok_bind, e0, e1]
  rw [← Except.ok.inj e]

theorem ratioClusterM_follow (hA : Answers M S P) {E : Env G H Θ} {s : Alg G H Θ} {L : Launch G H Θ}
    {split : Bool} {mx : σ} {R R' : Ratios G H Θ} {c : Bool} {row : ℕ} (hP : P mx)
    (e : ratioCluster E S s L split R c row = .ok R') :
    ∃ mx', ratioClusterM E S.pred M s L split (mx, R) c row = .ok (mx', R') ∧ P mx' := by
  have hdec : ∃ od pp ou cyc, (R.div c).addDatum E s.hyp true row = .ok od ∧
      (if R.uni.card = 0 then .ok (R.predUni + S.pred s.hyp row, R.prior)
        else (do
          let p ← condPred E S s.hyp R.uni row
          .ok (R.predUni + p, R.prior - S.exist s.alloc.length 2 R.uni.card)) :
        Except Fault (ℝ × ℝ)) = .ok pp ∧ R.uni.addDatum E s.hyp true row = .ok ou ∧
      (if split then .ok ((L.vals c).idx.erase row)
        else (do
          let a ← vget s.alloc row
          let o ← vget s.clus a
          .ok o.idx) : Except Fault (Finset ℕ)) = .ok cyc ∧
      ((cyc.erase row).sort (· ≤ ·)).foldlM (ratioAdd E S s.hyp s.alloc.length c)
        ⟨Function.update R.div c od, ou, Function.update R.predDiv c (R.predDiv c + S.pred s.hyp row),
          pp.1, pp.2⟩ = .ok R' := by
    unfold ratioCluster at e
    dsimp only at e
    rw [bind_eq_ok] at e
    obtain ⟨od, hod, e⟩ := e
    by_cases h : R.uni.card = 0
    · rw [if_pos h, ok_bind, bind_eq_ok] at e
      obtain ⟨ou, hou, e⟩ := e
      cases split
      · rw [if_neg (by simp), bind_eq_ok] at e
        obtain ⟨cyc, hcyc, e⟩ := e
        exact ⟨od, _, ou, cyc, hod, by rw [if_pos h], hou, by rw [if_neg (by simp)]; exact hcyc, e⟩
      · rw [if_pos rfl, ok_bind] at e
        exact ⟨od, _, ou, _, hod, by rw [if_pos h], hou, by rw [if_pos rfl], e⟩
    · rw [if_neg h, bind_eq_ok] at e
      obtain ⟨pp, hpp, e⟩ := e
      rw [bind_eq_ok] at e
      obtain ⟨ou, hou, e⟩ := e
      cases split
      · rw [if_neg (by simp), bind_eq_ok] at e
        obtain ⟨cyc, hcyc, e⟩ := e
        exact ⟨od, pp, ou, cyc, hod, by rw [if_neg h]; exact hpp, hou,
          by rw [if_neg (by simp)]; exact hcyc, e⟩
      · rw [if_pos rfl, ok_bind] at e
        exact ⟨od, pp, ou, _, hod, by rw [if_neg h]; exact hpp, hou, by rw [if_pos rfl], e⟩
  obtain ⟨od, pp, ou, cyc, hod, hpp, hou, hcyc, e⟩ := hdec
  have key : ∃ mx1, (if R.uni.card = 0 then .ok (mx, R.predUni + S.pred s.hyp row, R.prior)
      else (do
        let p ← condPred E (predOnly S.pred) s.hyp R.uni row
        let m ← M.existing mx s.alloc.length 2 R.uni.card.toNat
        .ok (m.2, R.predUni + p, R.prior - m.1.toReal)) : Except Fault (σ × ℝ × ℝ)) = .ok (mx1, pp) ∧
      P mx1 := by
    by_cases h : R.uni.card = 0
    · rw [if_pos h] at hpp ⊢
      exact ⟨mx, by rw [← Except.ok.inj hpp], hP⟩
    · rw [if_neg h, bind_eq_ok] at hpp
      obtain ⟨p, hp, hpp⟩ := hpp
      have hp' : condPred E (predOnly S.pred) s.hyp R.uni row = .ok p := hp
      obtain ⟨v0, mx0, h0, hP0, e0⟩ := hA.existing mx s.alloc.length R.uni.card hP
      refine ⟨mx0, ?_, hP0⟩
      rw [if_neg h]
      simp only [hp', h0, ok_bind, e0]
      rw [← Except.ok.inj hpp]
  obtain ⟨mx1, h1, hP1⟩ := key
  obtain ⟨mx2, h2, hP2⟩ := foldlM_follow (g := ratioAddM E S.pred M s.hyp s.alloc.length c)
    (fun _ _ _ _ hP e => ratioAddM_follow hA hP e) _ hP1 e
  refine ⟨mx2, ?_, hP2⟩
  unfold ratioClusterM
  dsimp only
  rw [hod, ok_bind]
  by_cases h : R.uni.card = 0
  · rw [if_pos h] at h1 ⊢
    cases h1
    rw [ok_bind, hou, ok_bind]
    cases split
    · rw [if_neg (by simp)] at hcyc ⊢
      rw [hcyc]
      exact h2
    · rw [if_pos rfl] at hcyc ⊢
      cases hcyc
      exact h2
  · rw [if_neg h] at h1 ⊢
    rw [h1, ok_bind, hou, ok_bind]
    cases split
    · rw [if_neg (by simp)] at hcyc ⊢
      rw [hcyc]
      exact h2
    · rw [if_pos rfl] at hcyc ⊢
      cases hcyc
      exact h2

theorem logRatiosM_follow (hA : Answers M S P) {E : Env G H Θ} {s : Alg G H Θ} {L : Launch G H Θ}
    {i j : ℕ} {split : Bool} {mx : σ} {y : ℝ × ℝ} (hP : P mx)
    (e : logRatios E S s L i j split = .ok y) :
    ∃ mx', logRatiosM E S.pred M s L i j split mx = .ok (mx', y) ∧ P mx' := by
  simp only [logRatios, bind_eq_ok] at e
  obtain ⟨o, ho, R1, hR1, R2, hR2, e⟩ := e
  obtain ⟨v, mx0, h0, hP0, e0⟩ := hA.new mx s.alloc.length hP
  rw [← e0] at hR1
  obtain ⟨mx1, h1, hP1⟩ := ratioClusterM_follow hA hP0 hR1
  obtain ⟨mx2, h2, hP2⟩ := ratioClusterM_follow hA hP1 hR2
  refine ⟨mx2, ?_, hP2⟩
  simp only [logRatiosM, ho, h0, h1, h2, ok_bind]
  rw [← Except.ok.inj e]

theorem logArateM_follow (hA : Answers M S P) {E : Env G H Θ} {s : Alg G H Θ} {L : Launch G H Θ}
    {i j : ℕ} {r : ℕ → ℕ} {mx : σ} {y : Bool × Launch G H Θ × ℝ} (hP : P mx)
    (e : logArate E S s L i j r = .ok y) :
    ∃ mx', logArateM E S.pred M s (mx, L) i j r = .ok (mx', y) ∧ P mx' := by
  simp only [logArate, bind_eq_ok] at e
  obtain ⟨a, ha, b, hb, La, hLa, ratio, hratio, e⟩ := e
  obtain ⟨mx1, h1, hP1⟩ := restrictedGsM_follow hA hP hLa
  obtain ⟨mx2, h2, hP2⟩ := logRatiosM_follow hA hP1 hratio
  refine ⟨mx2, ?_, hP2⟩
  simp only [logArateM, ha, hb, h1, h2, ok_bind]
  rw [← Except.ok.inj e]

theorem splitOrMergeM_follow (hA : Answers M S P) {E : Env G H Θ} {s s' : Alg G H Θ} {L : Launch G H Θ}
    {i j : ℕ} {r : ℕ → ℕ} {u : ℝ} {mx : σ} (hP : P mx) (e : splitOrMerge E S s L i j r u = .ok s') :
    ∃ mx', splitOrMergeM E S.pred M s (mx, L) i j r u = .ok (mx', s') ∧ P mx' := by
  simp only [splitOrMerge, bind_eq_ok] at e
  obtain ⟨A, hA', e⟩ := e
  obtain ⟨mx1, h1, hP1⟩ := logArateM_follow hA hP hA'
  refine ⟨mx1, ?_, hP1⟩
  simp only [splitOrMergeM, h1, ok_bind]
  by_cases h : u = 0 ∨ Real.log u < A.2.2
  · rw [if_pos h] at e ⊢
    rw [e, ok_bind]
  · rw [if_neg h] at e ⊢
    rw [Except.ok.inj e]

theorem mhUpdateM_follow (hA : Answers M S P) {E : Env G H Θ} {nRestr n : ℕ} {s s' : Alg G H Θ}
    {z : MHNoise} {mx : σ} (hP : P mx) (e : mhUpdate E S nRestr n s z = .ok s') :
    ∃ mx', mhUpdateM E S.pred M nRestr n (mx, s) z = .ok (mx', s') ∧ P mx' := by
  simp only [mhUpdate, launch, bind_eq_ok] at e
  obtain ⟨ij, hij, L, ⟨rows, hrows, L0, hL0, hL⟩, e⟩ := e
  obtain ⟨mx1, h1, hP1⟩ := foldlM_follow (mx := mx) (P := P)
    (g := fun x t => do
      let La ← restrictedGsM E S.pred M s ij.1 false false (z.scan t) x
      .ok (La.1, La.2.1)) (by
    intro t mx x x' hP e
    rw [bind_eq_ok] at e
    obtain ⟨La, hLa, e⟩ := e
    obtain ⟨mx', h', hP'⟩ := restrictedGsM_follow hA hP hLa
    exact ⟨mx', by rw [h', ok_bind, ← Except.ok.inj e], hP'⟩) _ hP hL
  obtain ⟨mx2, h2, hP2⟩ := splitOrMergeM_follow hA hP1 e
  refine ⟨mx2, ?_, hP2⟩
  simp only [mhUpdateM, launchM, hij, hrows, hL0, ok_bind]
  rw [h1, ok_bind, h2]

/-! ## The first question -/

/-- The launch state before any restricted scan. -/
theorem launch_start {E : Env G H Θ} (hk : E.kind ≠ .other) {n : ℕ} {s : Alg G H Θ}
    (hs : Consistent E.contrib n s) {i j : ℕ} (hi : i < n) (hj : j < n) (hij : i ≠ j)
    {o : Hier G H Θ} (ho : s.clus[0]? = some o) (M : MixOps σ) (pred : H → ℕ → ℝ) (nRestr : ℕ) (z : MHNoise)
    (mx : σ) : launchM E pred M nRestr s i j z mx = (List.range nRestr).foldlM (fun x t => do
      let La ← restrictedGsM E pred M s i false false (z.scan t) x
      .ok (La.1, La.2.1)) (mx, launchOf E s.hyp o.state i j (scanRows n s.alloc i j)
        (fun t => decide (z.launch t % 2 = 1))) := by
  have hr := scanRows_ok (n := n) (al := s.alloc) hij
  simp only [launchM, launchRows_ok hs hi hj, ok_bind, launchValues_ok hk hr ho]

omit [AddCommGroup G] in
theorem restrictedGsM_nil [AddGroup G] (E : Env G H Θ) (pred : H → ℕ → ℝ) (M : MixOps σ) (s : Alg G H Θ)
    (first : ℕ) (ret toOrig : Bool) (r : ℕ → ℕ) (mx : σ) {L : Launch G H Θ} (h : L.rows = []) :
    restrictedGsM E pred M s first ret toOrig r (mx, L) = .ok (mx, L, 0) := by
  simp [restrictedGsM, h]

omit [AddCommGroup G] in
theorem restrictedGsM_swap [AddGroup G] (E : Env G H Θ) (pred : H → ℕ → ℝ) (M : MixOps σ)
    (s : Alg G H Θ) (first : ℕ) (ret toOrig : Bool) (r : ℕ → ℕ) {mx mx1 : σ} {L : Launch G H Θ}
    (h : L.rows ≠ [])
    (he : ∀ c, M.existing mx (L.rows.length + 1) 2 c = M.existing mx1 (L.rows.length + 1) 2 c) :
    restrictedGsM E pred M s first ret toOrig r (mx, L) =
      restrictedGsM E pred M s first ret toOrig r (mx1, L) := by
  obtain ⟨R, hR⟩ : ∃ R, L.rows.length = R + 1 :=
    ⟨L.rows.length - 1, by have := List.length_pos_of_ne_nil h; omega⟩
  have he' : ∀ c, M.existing mx (L.rows.length + 2 - 1) 2 c = M.existing mx1 (L.rows.length + 2 - 1) 2 c := he
  simp only [restrictedGsM, hR, List.range_succ_eq_map, List.foldlM_cons]
  simp only [restrictedStepM, he']

theorem restrictedGsM_error {E : Env G H Θ} (hk : E.kind ≠ .other) (pred : H → ℕ → ℝ) (M : MixOps σ)
    {s : Alg G H Θ} {θ : Θ} {i j : ℕ} {rows : List ℕ} (hr : RowsOk i j rows) (c : ℕ → Bool)
    (ret toOrig : Bool) (r : ℕ → ℕ) {mx : σ} {f : Fault} (h : rows ≠ [])
    (he : ∀ c, M.existing mx (rows.length + 1) 2 c = .error f) :
    restrictedGsM E pred M s i ret toOrig r (mx, launchOf E s.hyp θ i j rows c) = .error f := by
  obtain ⟨R, hR⟩ : ∃ R, rows.length = R + 1 :=
    ⟨rows.length - 1, by have := List.length_pos_of_ne_nil h; omega⟩
  have hlen : (launchOf E s.hyp θ i j rows c).rows.length = R + 1 := hR
  have he' : ∀ c, M.existing mx (R + 1 + 2 - 1) 2 c = .error f := by rw [← hR]; exact he
  have e := restrictedStep_ok (toOrig := false) (predOnly pred) hk (s := s) (θ := θ) hr c (by simp) ret r 0
    (show 0 < rows.length by omega)
  simp only [restrictedStep, bind_eq_ok] at e
  obtain ⟨c', hc, x, hx, o, ho, -⟩ := e
  simp only [restrictedGsM, hlen, List.range_succ_eq_map, List.foldlM_cons]
  simp only [restrictedStepM, hc, hx, ho, ok_bind, hlen, he', error_bind]

theorem foldlM_scan_nil (E : Env G H Θ) (pred : H → ℕ → ℝ) (M : MixOps σ) (s : Alg G H Θ)
    (first : ℕ) (scan : ℕ → ℕ → ℕ) (mx : σ) {L : Launch G H Θ} (h : L.rows = []) (l : List ℕ) :
    l.foldlM (fun x t => do
      let La ← restrictedGsM E pred M s first false false (scan t) x
      .ok (La.1, La.2.1)) (mx, L) = .ok (mx, L) := by
  induction l with
  | nil => rfl
  | cons a l ih =>
    rw [List.foldlM_cons, restrictedGsM_nil E pred M s first false false _ mx h, ok_bind, ok_bind]
    exact ih

/-- A move depends on the state of the mixing only through its answer to the first question. -/
theorem mhUpdateM_swap {E : Env G H Θ} (hk : E.kind ≠ .other) (pred : H → ℕ → ℝ) (M : MixOps σ)
    (nRestr : ℕ) {n : ℕ} {s : Alg G H Θ} (hs : Consistent E.contrib n s) {i j : ℕ} (hi : i < n) (hj : j < n)
    (hij : i ≠ j) (z : MHNoise) (hz : pickPair n z.first z.second = .ok (i, j)) {mx mx1 : σ}
    (he : scanRows n s.alloc i j ≠ [] → ∀ c, M.existing mx ((scanRows n s.alloc i j).length + 1) 2 c =
      M.existing mx1 ((scanRows n s.alloc i j).length + 1) 2 c)
    (hn : scanRows n s.alloc i j = [] → M.new mx n 2 = M.new mx1 n 2) :
    mhUpdateM E pred M nRestr n (mx, s) z = mhUpdateM E pred M nRestr n (mx1, s) z := by
  obtain ⟨o, ho⟩ := first_obj hs (by omega)
  obtain ⟨L, hL⟩ : ∃ L, L = launchOf E s.hyp o.state i j (scanRows n s.alloc i j)
    (fun t => decide (z.launch t % 2 = 1)) := ⟨_, rfl⟩
  have hrows : L.rows = scanRows n s.alloc i j := by rw [hL]; rfl
  simp only [mhUpdateM, hz, ok_bind, launch_start hk hs hi hj hij ho, ← hL]
  by_cases h : scanRows n s.alloc i j = []
  · have hL0 : L.rows = [] := hrows.trans h
    rw [foldlM_scan_nil E pred M s i z.scan mx hL0, foldlM_scan_nil E pred M s i z.scan mx1 hL0]
    simp only [ok_bind, splitOrMergeM, logArateM, restrictedGsM_nil _ _ _ _ _ _ _ _ _ hL0, logRatiosM,
      hs.len, hn h]
  · have hL0 : L.rows ≠ [] := by rw [hrows]; exact h
    have hsw : ∀ ret toOrig r, restrictedGsM E pred M s i ret toOrig r (mx, L) =
        restrictedGsM E pred M s i ret toOrig r (mx1, L) :=
      fun ret toOrig r => restrictedGsM_swap E pred M s i ret toOrig r hL0 (by rw [hrows]; exact he h)
    cases nRestr with
    | zero =>
      simp only [List.range_zero, List.foldlM_nil, pure_eq_ok, ok_bind, splitOrMergeM, logArateM, hsw]
    | succ t => simp only [List.range_succ_eq_map, List.foldlM_cons, hsw]

/-- If the first question fails, so does the move. -/
theorem mhUpdateM_error {E : Env G H Θ} (hk : E.kind ≠ .other) (pred : H → ℕ → ℝ) (M : MixOps σ)
    (nRestr : ℕ) {n : ℕ} {s : Alg G H Θ} (hs : Consistent E.contrib n s) {i j : ℕ} (hi : i < n) (hj : j < n)
    (hij : i ≠ j) (z : MHNoise) (hz : pickPair n z.first z.second = .ok (i, j)) {mx : σ} {f : Fault}
    (he : scanRows n s.alloc i j ≠ [] →
      ∀ c, M.existing mx ((scanRows n s.alloc i j).length + 1) 2 c = .error f)
    (hn : scanRows n s.alloc i j = [] → M.new mx n 2 = .error f) :
    mhUpdateM E pred M nRestr n (mx, s) z = .error f := by
  obtain ⟨o, ho⟩ := first_obj hs (by omega)
  obtain ⟨a, ha, -⟩ := hs.on.labelled i (Finset.mem_range.mpr hi)
  obtain ⟨b, hb, -⟩ := hs.on.labelled j (Finset.mem_range.mpr hj)
  have hr := scanRows_ok (n := n) (al := s.alloc) hij
  simp only [mhUpdateM, hz, ok_bind, launch_start hk hs hi hj hij ho]
  by_cases h : scanRows n s.alloc i j = []
  · have hL0 : (launchOf E s.hyp o.state i j (scanRows n s.alloc i j)
        (fun t => decide (z.launch t % 2 = 1))).rows = [] := h
    rw [foldlM_scan_nil E pred M s i z.scan mx hL0]
    simp only [ok_bind, splitOrMergeM, logArateM, restrictedGsM_nil _ _ _ _ _ _ _ _ _ hL0, logRatiosM,
      hs.len, hn h, vget_ok ha, vget_ok hb, vget_ok ho, error_bind]
  · have hsw := fun ret toOrig r => restrictedGsM_error (s := s) (θ := o.state) hk pred M hr
      (fun t => decide (z.launch t % 2 = 1)) ret toOrig r h (he h)
    cases nRestr with
    | zero =>
      simp only [List.range_zero, List.foldlM_nil, pure_eq_ok, ok_bind, splitOrMergeM, logArateM, hsw,
        vget_ok ha, vget_ok hb, error_bind]
    | succ t => simp only [List.range_succ_eq_map, List.foldlM_cons, hsw, error_bind]

end Bayesmix.SplitMerge
