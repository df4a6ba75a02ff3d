import Verif.Algo.SMLaw
import Verif.Algo.PropsSplitMerge

/-! # Laws of the labels of the temporary clusters -/

namespace Bayesmix.Chain
open Bayesmix Cond Gibbs SplitMerge Slice

variable {G H Θ S T U : Type}

/-! ### Laws -/

/-- Image of a law. -/
def lmap (g : S → T) (l : Law S) : Law T := l.map fun x => (x.1, g x.2)

/-- Mixture of laws. -/
noncomputable def lbind (l : Law S) (m : S → Law T) : Law T :=
  (l.map fun x => (m x.2).map fun y => (x.1 * y.1, y.2)).flatten

/-- Mean of a function. -/
noncomputable def lawMean (l : Law S) (f : S → ℝ) : ℝ := (l.map fun x => x.1 * f x.2).sum

theorem into_ok {l : Law S} {f : S → Except Fault (Law T)} {m : S → Law T}
    (h : ∀ x ∈ l, f x.2 = .ok (m x.2)) : Law.into l f = .ok (lbind l m) := by
  unfold Law.into lbind
  rw [Gibbs.mapM_ok _ (fun x => (m x.2).map fun y => (x.1 * y.1, y.2))
    l (fun x hx => by rw [h x hx, ok_bind]), ok_bind]

theorem into_lmap {g : S → T} {l : Law S} {f : T → Except Fault (Law U)} {m : S → Law U}
    (h : ∀ x ∈ l, f (g x.2) = .ok (m x.2)) : Law.into (lmap g l) f = .ok (lbind l m) := by
  unfold Law.into lbind lmap
  rw [List.mapM_map, Gibbs.mapM_ok _ (fun x => (m x.2).map fun y => (x.1 * y.1, y.2))
    l (fun x hx => by simp only [Function.comp]; rw [h x hx, ok_bind]), ok_bind]

theorem andThen_eq {l : Law S} {f : S → Except Fault (Law S)} {m : S → Law S}
    (h : ∀ x ∈ l, f x.2 = .ok (m x.2)) : l.andThen f = .ok (lbind l m) := into_ok h

theorem lbind_nil (m : S → Law T) : lbind [] m = [] := rfl

theorem lbind_cons (x : ℝ × S) (l : Law S) (m : S → Law T) :
    lbind (x :: l) m = ((m x.2).map fun y => (x.1 * y.1, y.2)) ++ lbind l m := by simp [lbind]

theorem lbind_lmap (g : S → T) (l : Law S) (m : T → Law U) :
    lbind (lmap g l) m = lbind l fun s => m (g s) := by
  simp [lbind, lmap, List.map_map, Function.comp_def]

theorem lbind_dirac (g : S → T) (l : Law S) : lbind l (fun s => [(1, g s)]) = lmap g l := by
  induction l with
  | nil => rfl
  | cons x l ih => rw [lbind_cons, ih]; simp [lmap]

theorem lmap_lbind (g : T → U) (l : Law S) (m : S → Law T) :
    lmap g (lbind l m) = lbind l fun s => lmap g (m s) := by
  simp [lbind, lmap, List.map_flatten, List.map_map, Function.comp_def]

theorem lbind_congr {l : Law S} {m m' : S → Law T} (h : ∀ x ∈ l, m x.2 = m' x.2) :
    lbind l m = lbind l m' := by
  unfold lbind
  congr 1
  exact List.map_congr_left fun x hx => by rw [h x hx]

theorem lawMean_nil (f : S → ℝ) : lawMean [] f = 0 := rfl

theorem lawMean_cons (x : ℝ × S) (l : Law S) (f : S → ℝ) :
    lawMean (x :: l) f = x.1 * f x.2 + lawMean l f := by simp [lawMean]

theorem lawMean_append (l m : Law S) (f : S → ℝ) : lawMean (l ++ m) f = lawMean l f + lawMean m f := by
  simp [lawMean]

theorem lawMean_scale (c : ℝ) (l : Law S) (f : S → ℝ) :
    lawMean (l.map fun y => (c * y.1, y.2)) f = c * lawMean l f := by
  induction l with
  | nil => simp [lawMean]
  | cons x l ih => rw [List.map_cons, lawMean_cons, ih, lawMean_cons]; ring

theorem lawMean_lbind (l : Law S) (m : S → Law T) (f : T → ℝ) :
    lawMean (lbind l m) f = lawMean l fun s => lawMean (m s) f := by
  induction l with
  | nil => rfl
  | cons x l ih => rw [lbind_cons, lawMean_append, lawMean_scale, ih, lawMean_cons]

theorem lawMean_lmap (g : S → T) (l : Law S) (f : T → ℝ) :
    lawMean (lmap g l) f = lawMean l fun s => f (g s) := by
  simp [lawMean, lmap, List.map_map, Function.comp_def]

theorem lawMean_mul (c : ℝ) (l : Law S) (f : S → ℝ) :
    lawMean l (fun s => c * f s) = c * lawMean l f := by
  induction l with
  | nil => simp [lawMean]
  | cons x l ih => rw [lawMean_cons, ih, lawMean_cons]; ring

theorem lawMean_congr {l : Law S} {f f' : S → ℝ} (h : ∀ x ∈ l, f x.2 = f' x.2) :
    lawMean l f = lawMean l f' := by
  unfold lawMean
  congr 1
  exact List.map_congr_left fun x hx => by rw [h x hx]

theorem lawMean_nonneg {l : Law S} {f : S → ℝ} (hl : ∀ x ∈ l, 0 ≤ x.1) (hf : ∀ x ∈ l, 0 ≤ f x.2) :
    0 ≤ lawMean l f := by
  refine List.sum_nonneg fun y hy => ?_
  obtain ⟨x, hx, rfl⟩ := List.mem_map.mp hy
  exact mul_nonneg (hl x hx) (hf x hx)

open Classical in
theorem prob_eq_lawMean (l : Law S) (P : S → Prop) :
    l.prob P = lawMean l fun s => if P s then 1 else 0 := by
  unfold Law.prob lawMean
  congr 1
  refine List.map_congr_left fun x _ => ?_
  by_cases h : P x.2 <;> simp [h]

/-- Nonnegative weights that add up to one. -/
structure IsLaw (l : Law S) : Prop where
  nonneg : ∀ x ∈ l, 0 ≤ x.1
  total : lawMean l (fun _ => 1) = 1

theorem IsLaw.dirac (s : S) : IsLaw [((1 : ℝ), s)] := ⟨by simp, by simp [lawMean]⟩

theorem mem_lbind {l : Law S} {m : S → Law T} {y : ℝ × T} (h : y ∈ lbind l m) :
    ∃ x ∈ l, ∃ z ∈ m x.2, y = (x.1 * z.1, z.2) := by
  unfold lbind at h
  obtain ⟨a, ha, hy⟩ := List.mem_flatten.mp h
  obtain ⟨x, hx, rfl⟩ := List.mem_map.mp ha
  obtain ⟨z, hz, rfl⟩ := List.mem_map.mp hy
  exact ⟨x, hx, z, hz, rfl⟩

theorem IsLaw.lbind {l : Law S} {m : S → Law T} (hl : IsLaw l) (hm : ∀ x ∈ l, IsLaw (m x.2)) :
    IsLaw (lbind l m) := by
  refine ⟨fun y hy => ?_, ?_⟩
  · obtain ⟨x, hx, z, hz, rfl⟩ := mem_lbind hy
    exact mul_nonneg (hl.nonneg x hx) ((hm x hx).nonneg z hz)
  · rw [lawMean_lbind, lawMean_congr (f' := fun _ => 1) fun x hx => (hm x hx).total, hl.total]

theorem IsLaw.lmap {l : Law S} (hl : IsLaw l) (g : S → T) : IsLaw (lmap g l) := by
  refine ⟨fun y hy => ?_, by rw [lawMean_lmap]; exact hl.total⟩
  obtain ⟨x, hx, rfl⟩ := List.mem_map.mp hy
  exact hl.nonneg x hx

/-! ### Loops whose bodies draw -/

/-- The law after a loop. -/
noncomputable def loopLaw (row : ℕ → S → Law S) : List ℕ → S → Law S
  | [], s => [(1, s)]
  | k :: ks, s => lbind (row k s) (loopLaw row ks)

theorem loopLaw_isLaw {row : ℕ → S → Law S} {ks : List ℕ} (h : ∀ k s, IsLaw (row k s)) (s : S) :
    IsLaw (loopLaw row ks s) := by
  induction ks generalizing s with
  | nil => exact IsLaw.dirac s
  | cons k ks ih => exact (h k s).lbind fun x _ => ih x.2

/-- A loop of the code whose states are images of simpler ones. -/
theorem sweep_eq {row : ℕ → T → Except Fault (Law T)} {prow : ℕ → S → Law S} {g : ℕ → S → T}
    (t r : ℕ) (h : ∀ k s, t ≤ k → k < t + r → row k (g k s) = .ok (lmap (g (k + 1)) (prow k s)))
    (s : S) : sweep row (List.range' t r) (g t s) =
      .ok (lmap (g (t + r)) (loopLaw prow (List.range' t r) s)) := by
  induction r generalizing t s with
  | zero => simp [sweep, loopLaw, lmap]
  | succ r ih =>
    rw [List.range'_succ, sweep, h t s le_rfl (by omega), ok_bind, loopLaw, lmap_lbind]
    rw [show (lmap (g (t + 1)) (prow t s)).andThen (sweep row (List.range' (t + 1) r)) = _ from
      into_lmap (m := fun u => lmap (g (t + 1 + r)) (loopLaw prow (List.range' (t + 1) r) u))
        fun x _ => ih (t + 1) (fun k u h1 h2 => h k u (by omega) (by omega)) x.2]
    rw [show t + 1 + r = t + (r + 1) by omega]

/-- The same for a fixed image. -/
theorem sweep_range {row : ℕ → T → Except Fault (Law T)} {prow : ℕ → S → Law S} {g : S → T} {m : ℕ}
    (h : ∀ k s, k < m → row k (g s) = .ok (lmap g (prow k s))) (s : S) :
    sweep row (List.range m) (g s) = .ok (lmap g (loopLaw prow (List.range m) s)) := by
  rw [List.range_eq_range']
  exact sweep_eq (g := fun _ => g) 0 m (fun k s _ hk => h k s (by omega)) s

theorem drawTwo {next : ℕ → Except Fault T} {p q : ℝ} {a b : T} (h0 : next 0 = .ok a)
    (h1 : next 1 = .ok b) : drawThen [p, q] next = .ok [(p, a), (q, b)] := by
  have := drawThen_ok (p := [p, q]) (next := next) (t := fun c => if c = 0 then a else b) (by
    intro c hc
    rcases c with _ | _ | c
    · simpa using h0
    · simpa using h1
    · simp at hc)
  rw [this]
  simp [List.range_succ]

/-! ### Labels -/

section labels

variable [AddCommGroup G]

/-- A fair label for row number `k`. -/
noncomputable def flipRow (k : ℕ) (c : ℕ → Bool) : Law (ℕ → Bool) :=
  [(1 / 2, Function.update c k false), (1 / 2, Function.update c k true)]

/-- Log probability of label `b` for row number `k`. -/
noncomputable def labLog (E : Env G H Θ) (S : Scores H) (h : H) (i j : ℕ) (rows : List ℕ)
    (c : ℕ → Bool) (k : ℕ) (b : Bool) : ℝ := logProba (scanWeight E S h i j rows c k) b

/-- A new label for row number `k`, with the accumulated log probability. -/
noncomputable def scanRow (E : Env G H Θ) (S : Scores H) (h : H) (i j : ℕ) (rows : List ℕ)
    (ret : Bool) (k : ℕ) (x : (ℕ → Bool) × ℝ) : Law ((ℕ → Bool) × ℝ) :=
  [false, true].map fun b => (Real.exp (labLog E S h i j rows x.1 k b),
    (Function.update x.1 k b, if ret then x.2 + labLog E S h i j rows x.1 k b else x.2))

/-- The labels after `t` restricted scans. -/
noncomputable def scans (E : Env G H Θ) (S : Scores H) (h : H) (i j : ℕ) (rows : List ℕ) :
    ℕ → (ℕ → Bool) → Law (ℕ → Bool)
  | 0, c => [(1, c)]
  | t + 1, c => lbind (loopLaw (scanRow E S h i j rows false) (List.range rows.length) (c, 0))
      fun x => scans E S h i j rows t x.1

/-- The labels of the launch state. -/
noncomputable def labLaw (E : Env G H Θ) (S : Scores H) (h : H) (i j : ℕ) (rows : List ℕ)
    (nRestr : ℕ) : Law (ℕ → Bool) :=
  lbind (loopLaw flipRow (List.range rows.length) fun _ => false) (scans E S h i j rows nRestr)

theorem logProba_exp (l : Bool → ℝ) (b : Bool) : Real.exp (logProba l b) =
    Real.exp (l b) / (Real.exp (l false) + Real.exp (l true)) := by
  rw [logProba, Real.exp_log]
  positivity

theorem scanRow_isLaw (E : Env G H Θ) (S : Scores H) (h : H) (i j : ℕ) (rows : List ℕ)
    (ret : Bool) (k : ℕ) (x : (ℕ → Bool) × ℝ) : IsLaw (scanRow E S h i j rows ret k x) := by
  refine ⟨fun y hy => ?_, ?_⟩
  · obtain ⟨b, -, rfl⟩ := List.mem_map.mp hy
    exact (Real.exp_pos _).le
  · simp only [scanRow, lawMean, List.map_cons, List.map_nil, List.sum_cons, List.sum_nil, mul_one,
      add_zero, labLog, logProba_exp]
    rw [← add_div]
    exact div_self (by positivity)

theorem flipRow_isLaw (k : ℕ) (c : ℕ → Bool) : IsLaw (flipRow k c) := by
  refine ⟨fun y hy => ?_, ?_⟩
  · simp only [flipRow, List.mem_cons, List.not_mem_nil, or_false] at hy
    rcases hy with rfl | rfl <;> norm_num
  · simp only [flipRow, lawMean, List.map_cons, List.map_nil, List.sum_cons, List.sum_nil]
    norm_num

theorem labLaw_isLaw (E : Env G H Θ) (S : Scores H) (h : H) (i j : ℕ) (rows : List ℕ)
    (nRestr : ℕ) : IsLaw (labLaw E S h i j rows nRestr) := by
  refine (loopLaw_isLaw flipRow_isLaw _).lbind fun x _ => ?_
  have : ∀ t c, IsLaw (scans E S h i j rows t c) := by
    intro t
    induction t with
    | zero => exact fun c => IsLaw.dirac c
    | succ t ih =>
      exact fun c => (loopLaw_isLaw (scanRow_isLaw E S h i j rows false) _).lbind fun x _ => ih x.2.1
  exact this nRestr x.2

variable {E : Env G H Θ} {Sc : Scores H} {s : Alg G H Θ} {θ : Θ} {i j : ℕ} {rows : List ℕ}

theorem restrictedProbas_ok (S : Scores H) (hk : E.kind ≠ .other) (hr : RowsOk i j rows)
    (c : ℕ → Bool) {k : ℕ} (hkl : k < rows.length) :
    restrictedProbas E S s (launchOf E s.hyp θ i j rows c) k =
      .ok [Real.exp (labLog E S s.hyp i j rows c k false),
        Real.exp (labLog E S s.hyp i j rows c k true)] := by
  obtain ⟨x, hx⟩ : ∃ x, x = rows.getD k 0 := ⟨_, rfl⟩
  have hg : rows[k]? = some x := by
    rw [List.getElem?_eq_getElem hkl, hx, List.getD_eq_getElem _ _ hkl]
  have hlab : ((List.range rows.length).map c)[k]? = some (c k) := by simp [hkl]
  have hmem : ∀ b, x ∈ side i j rows c b ↔ c k = b := fun b => by rw [hx]; exact mem_side hr hkl
  have hvals : Function.update (fun b => objOf E s.hyp θ (side i j rows c b)) (c k)
      (objOf E s.hyp θ ((side i j rows c (c k)).erase x)) =
      fun b => objOf E s.hyp θ ((side i j rows c b).erase x) := by
    funext b'
    by_cases e : b' = c k
    · subst e; rw [Function.update_self]
    · rw [Function.update_of_ne e, Finset.erase_eq_of_notMem]
      rw [hmem]; exact Ne.symm e
  have hw : (fun b' : Bool => S.exist (rows.length + 2 - 1) 2
      (objOf E s.hyp θ ((side i j rows c b').erase x)).card +
      (if b' = true then predOn E S s.hyp ((side i j rows c true).erase x) x
        else predOn E S s.hyp ((side i j rows c false).erase x) x)) =
      scanWeight E S s.hyp i j rows c k := by
    funext b'
    cases b' <;> simp [scanWeight, objOf, hx]
  have hwf := congrFun hw false
  have hwt := congrFun hw true
  simp only [Bool.false_eq_true, if_false, if_true] at hwf hwt
  simp only [restrictedProbas, launchOf, vget_ok hlab, vget_ok hg, ok_bind,
    objOf_remove hk ((hmem _).mpr rfl), hvals, condPred_obj, labLog, logProba_exp,
    Bool.false_eq_true, if_false, if_true, hwf, hwt]

/-- A restricted scan with drawn labels. -/
theorem restrictedLaw_draw (S : Scores H) (hk : E.kind ≠ .other) (hr : RowsOk i j rows)
    (ret : Bool) (c : ℕ → Bool) :
    restrictedLaw E S s i ret false (launchOf E s.hyp θ i j rows c) =
      .ok (lmap (fun x => (launchOf E s.hyp θ i j rows x.1, x.2))
        (loopLaw (scanRow E S s.hyp i j rows ret) (List.range rows.length) (c, 0))) := by
  unfold restrictedLaw
  refine sweep_range (g := fun x : (ℕ → Bool) × ℝ => (launchOf E s.hyp θ i j rows x.1, x.2))
    (fun k x hkl => ?_) (c, 0)
  have hstep : ∀ b : ℕ, restrictedStep E S s i ret false (fun _ => b)
      (launchOf E s.hyp θ i j rows x.1, x.2) k = _ := fun b =>
    restrictedStep_ok (toOrig := false) S hk hr x.1 (by simp) ret (fun _ => b) x.2 hkl
  simp only [restrictedRow, Bool.false_eq_true, if_false]
  rw [restrictedProbas_ok S hk hr x.1 hkl, ok_bind, drawTwo (hstep 0) (hstep 1)]
  simp [scanRow, lmap, newLab, labLog]

theorem sweep_det {row : ℕ → T → Except Fault (Law T)} {f : T → ℕ → Except Fault T} {ks : List ℕ}
    (h : ∀ k ∈ ks, ∀ t, row k t = (do let u ← f t k; .ok [(1, u)])) {t u : T}
    (hf : ks.foldlM f t = .ok u) : sweep row ks t = .ok [(1, u)] := by
  induction ks generalizing t with
  | nil => cases hf; rfl
  | cons k ks ih =>
    rw [List.foldlM_cons] at hf
    cases e : f t k with
    | error x => rw [e] at hf; cases hf
    | ok v =>
      rw [e, ok_bind] at hf
      rw [sweep, h k (by simp), e, ok_bind, ok_bind, andThen_eq (m := fun _ => [(1, u)])]
      · simp [lbind]
      · intro x hx
        rw [List.mem_singleton] at hx
        subst hx
        exact ih (fun j hj => h j (by simp [hj])) hf

/-- A restricted scan that sends the rows back. -/
theorem restrictedLaw_back (S : Scores H) (hk : E.kind ≠ .other) (hr : RowsOk i j rows)
    (hal : i < s.alloc.length ∧ ∀ x ∈ rows, x < s.alloc.length) (c : ℕ → Bool) :
    restrictedLaw E S s i true true (launchOf E s.hyp θ i j rows c) =
      .ok [(1, (launchOf E s.hyp θ i j rows fun k => origLab s.alloc i (rows.getD k 0),
        transLog E S s.hyp i j rows c (fun k => origLab s.alloc i (rows.getD k 0)) rows.length))] := by
  have h := restrictedGs_ok (θ := θ) S hk hr c (toOrig := true) (fun _ => hal) true fun _ => 0
  unfold restrictedGs at h
  unfold restrictedLaw
  refine sweep_det (f := restrictedStep E S s i true true fun _ => 0) (fun k _ t => ?_) ?_
  · simp [restrictedRow]
  · rw [h]
    have e : (newLab s.alloc i rows true fun _ => 0) =
        fun k => origLab s.alloc i (rows.getD k 0) := by funext k; simp [newLab]
    rw [e]
    rfl

theorem part_update (rows : List ℕ) (c : ℕ → Bool) (b b' : Bool) (k : ℕ) :
    part rows (Function.update c k b) b' k = part rows c b' k := by
  unfold part
  congr 1
  refine Finset.filter_congr fun t ht => ?_
  rw [Function.update_of_ne (by have := Finset.mem_range.mp ht; omega)]

/-- The launch state. -/
theorem launchLaw_ok (hk : E.kind ≠ .other) (hr : RowsOk i j rows) {o : Hier G H Θ}
    (ho : s.clus[0]? = some o) :
    launchLaw E s i j rows = .ok (lmap (launchOf E s.hyp o.state i j rows)
      (loopLaw flipRow (List.range rows.length) fun _ => false)) := by
  obtain ⟨g, hg⟩ : ∃ g : ℕ → (ℕ → Bool) → Launch G H Θ, g = fun k c =>
    ⟨rows, (List.range rows.length).map c, fun b => rawOf E o.state (part rows c b k)⟩ := ⟨_, rfl⟩
  have hloop := sweep_eq (row := fun k L => drawThen [1 / 2, 1 / 2] fun c =>
      launchAdd E s.hyp (fun _ => c) L k) (prow := flipRow) (g := g) 0 rows.length (by
    intro k c _ hkl
    rw [zero_add] at hkl
    have hrow : rows[k]? = some (rows.getD k 0) := by
      rw [List.getElem?_eq_getElem hkl, List.getD_eq_getElem _ _ hkl]
    have hadd : ∀ b : ℕ, launchAdd E s.hyp (fun _ => b) (g k c) k =
        .ok (g (k + 1) (Function.update c k (decide (b % 2 = 1)))) := by
      intro b
      obtain ⟨d, hd⟩ : ∃ d, d = decide (b % 2 = 1) := ⟨_, rfl⟩
      rw [hg]
      simp only [launchAdd, vget_ok hrow, ok_bind, ← hd, rawOf_add (notMem_part hr.nodup hkl)]
      rw [vset_ok (by simpa using hkl), ok_bind, map_range_set]
      congr 2
      funext b'
      by_cases e : b' = d
      · subst e
        rw [Function.update_self, part_succ_same (by simp), part_update]
      · rw [Function.update_of_ne e, part_succ_ne (by simpa using Ne.symm e), part_update]
    rw [drawTwo (hadd 0) (hadd 1)]
    simp [flipRow, lmap]) fun _ => false
  rw [← List.range_eq_range', zero_add] at hloop
  have h0 : (⟨rows, List.replicate rows.length false, fun _ => o.clone⟩ : Launch G H Θ) =
      g 0 fun _ => false := by
    rw [hg]
    simp only [clone_eq E]
    congr 1
    · apply List.ext_getElem <;> simp
  have hroot : ∀ c b, (if b then j else i) ∉ part rows c b rows.length := by
    intro c b
    simp only [part, Finset.mem_image, Finset.mem_filter, Finset.mem_range, not_exists, not_and,
      and_imp]
    intro t ht _ e
    exact row_notMem_root hr ht b e
  unfold launchLaw
  rw [vget_ok ho, ok_bind, h0, hloop, ok_bind,
    into_lmap (m := fun c => [(1, launchOf E s.hyp o.state i j rows c)])]
  · congr 1
    exact lbind_dirac _ _
  · intro x _
    have e1 := hroot x.2 false
    have e2 := hroot x.2 true
    rw [hg]
    simp only [Bool.false_eq_true, if_false, if_true] at e1 e2
    simp only [rawOf_save hk e1, ok_bind]
    rw [Function.update_of_ne (by simp), rawOf_save hk e2, ok_bind]
    simp only [launchOf]
    congr 4
    funext b
    cases b <;> simp [side, part]

theorem scansLaw_ok (S : Scores H) (hk : E.kind ≠ .other) (hr : RowsOk i j rows) (t : ℕ)
    (c : ℕ → Bool) : scansLaw E S s i t (launchOf E s.hyp θ i j rows c) =
      .ok (lmap (launchOf E s.hyp θ i j rows) (scans E S s.hyp i j rows t c)) := by
  induction t generalizing c with
  | zero => simp [scansLaw, scans, lmap]
  | succ t ih =>
    rw [scansLaw, restrictedLaw_draw S hk hr, ok_bind,
      into_lmap (m := fun x => lmap (launchOf E s.hyp θ i j rows) (scans E S s.hyp i j rows t x.1))
        fun x _ => ih x.2.1]
    rw [scans, lmap_lbind]

/-- Mass that a scan gives to given labels. -/
theorem scan_point (S : Scores H) (h : H) (c0 c1 : ℕ → Bool) (F : ℝ → ℝ)
    {f : (ℕ → Bool) × ℝ → ℝ} [∀ c : ℕ → Bool, Decidable (∀ u < rows.length, c u = c1 u)]
    (hf : ∀ c a, f (c, a) = if ∀ u < rows.length, c u = c1 u then F a else 0) :
    lawMean (loopLaw (scanRow E S h i j rows true) (List.range rows.length) (c0, 0)) f =
      Real.exp (transLog E S h i j rows c0 c1 rows.length) *
        F (transLog E S h i j rows c0 c1 rows.length) := by
  have hbad : ∀ r t c a, t + r = rows.length → (∃ u < t, c u ≠ c1 u) →
      lawMean (loopLaw (scanRow E S h i j rows true) (List.range' t r) (c, a)) f = 0 := by
    intro r
    induction r with
    | zero =>
      rintro t c a htr ⟨u, hu, hne⟩
      simp only [List.range'_zero, loopLaw, lawMean_cons, lawMean_nil, hf]
      rw [if_neg fun h => hne (h u (by omega))]
      simp
    | succ r ih =>
      rintro t c a htr ⟨u, hu, hne⟩
      rw [List.range'_succ, loopLaw, lawMean_lbind]
      rw [lawMean_congr (f' := fun _ => 0 * 1)]
      · rw [lawMean_mul, zero_mul]
      · intro x hx
        obtain ⟨b, -, rfl⟩ := List.mem_map.mp hx
        rw [ih (t + 1) _ _ (by omega) ⟨u, by omega, ?_⟩, zero_mul]
        rwa [Function.update_of_ne (by omega)]
  have hmix : ∀ t, Function.update (mixLab c0 c1 t) t (c1 t) = mixLab c0 c1 (t + 1) := by
    intro t
    funext u
    by_cases e : u = t
    · subst e
      rw [Function.update_self, mixLab, if_pos (by omega)]
    · rw [Function.update_of_ne e]
      simp only [mixLab]
      have : u < t ↔ u < t + 1 := by omega
      simp only [this]
  obtain ⟨lp, hlp⟩ : ∃ lp : ℕ → ℝ, lp = fun t =>
    logProba (scanWeight E S h i j rows (mixLab c0 c1 t) t) (c1 t) := ⟨_, rfl⟩
  have key : ∀ r t a, t + r = rows.length →
      lawMean (loopLaw (scanRow E S h i j rows true) (List.range' t r) (mixLab c0 c1 t, a)) f =
        Real.exp (∑ u ∈ Finset.Ico t (t + r), lp u) *
          F (a + ∑ u ∈ Finset.Ico t (t + r), lp u) := by
    intro r
    induction r with
    | zero =>
      intro t a htr
      simp only [List.range'_zero, loopLaw, lawMean_cons, lawMean_nil, hf]
      rw [if_pos]
      · simp
      · intro u hu
        rw [mixLab, if_pos (by omega)]
    | succ r ih =>
      intro t a htr
      rw [List.range'_succ, loopLaw, lawMean_lbind]
      have h1 := ih (t + 1) (a + lp t) (by omega)
      rw [← hmix t] at h1
      have h2 := hbad r (t + 1) (Function.update (mixLab c0 c1 t) t (!c1 t))
        (a + labLog E S h i j rows (mixLab c0 c1 t) t (!c1 t)) (by omega)
        ⟨t, by omega, by rw [Function.update_self]; cases c1 t <;> simp⟩
      have h3 : labLog E S h i j rows (mixLab c0 c1 t) t (c1 t) = lp t := by rw [hlp]; rfl
      rw [← h3] at h1
      have hsum : ∑ u ∈ Finset.Ico t (t + (r + 1)), lp u =
          lp t + ∑ u ∈ Finset.Ico (t + 1) (t + 1 + r), lp u := by
        rw [Finset.sum_eq_sum_Ico_succ_bot (by omega), show t + (r + 1) = t + 1 + r by omega]
      have h4 : lawMean (scanRow E S h i j rows true t (mixLab c0 c1 t, a)) (fun x =>
          lawMean (loopLaw (scanRow E S h i j rows true) (List.range' (t + 1) r) x) f) =
          Real.exp (lp t) * lawMean (loopLaw (scanRow E S h i j rows true) (List.range' (t + 1) r)
            (Function.update (mixLab c0 c1 t) t (c1 t),
              a + labLog E S h i j rows (mixLab c0 c1 t) t (c1 t))) f := by
        simp only [scanRow, List.map_cons, List.map_nil, lawMean_cons, lawMean_nil, if_true, add_zero]
        cases hb : c1 t <;> rw [hb] at h2 h3 <;> simp only [Bool.not_false, Bool.not_true] at h2 <;>
          rw [h2, ← h3] <;> ring
      rw [h4, h1, hsum, Real.exp_add, h3, mul_assoc]
      congr 3
      ring
  have := key rows.length 0 0 (by omega)
  rw [← List.range_eq_range', zero_add, ← Finset.range_eq_Ico] at this
  have h0 : mixLab c0 c1 0 = c0 := by funext u; simp [mixLab]
  rw [h0, zero_add] at this
  rw [this, transLog, hlp]

end labels

end Bayesmix.Chain
