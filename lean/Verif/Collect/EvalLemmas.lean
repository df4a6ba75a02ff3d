import Verif.Collect.Lemmas
import Mathlib.Data.List.Perm.Basic
import Mathlib.Data.List.Range
import Mathlib.Data.List.Nodup

/-! Lemmas on the main loop, on stacking and on the parallel evaluation loops. -/

namespace Bayesmix

variable {M α : Type}

/-! ### Main loop -/

theorem runLoop_eq {S : Type} (step : S → S) (save : ℕ → S → M) (burnin left iter : ℕ) (s : S) :
    runLoop step save burnin left iter s =
      ((List.range' iter left).filter (fun i => burnin ≤ i)).map
        (fun i => Event.collect (save i (step^[i + 1 - iter] s))) := by
  induction left generalizing iter s with
  | zero => rfl
  | succ l ih =>
    have hmap : ∀ s, ((List.range' (iter + 1) l).filter (fun i => burnin ≤ i)).map
        (fun i => Event.collect (save i (step^[i + 1 - (iter + 1)] (step s)))) =
        ((List.range' (iter + 1) l).filter (fun i => burnin ≤ i)).map
        (fun i => Event.collect (save i (step^[i + 1 - iter] s))) := by
      intro s
      apply List.map_congr_left
      intro i hi
      rw [List.mem_filter, List.mem_range'] at hi
      obtain ⟨⟨j, hj, rfl⟩, -⟩ := hi
      have h1 : iter + 1 + 1 * j + 1 - iter = (iter + 1 + 1 * j + 1 - (iter + 1)) + 1 := by omega
      rw [h1, Function.iterate_succ_apply]
    rw [runLoop, ih, List.range'_succ, List.filter_cons]
    by_cases h : burnin ≤ iter
    · simp only [ge_iff_le, h, if_true, decide_true, List.map_cons, List.singleton_append,
        List.cons.injEq, Event.collect.injEq]
      refine ⟨by simp, hmap s⟩
    · simp only [ge_iff_le, h, if_false, decide_false, List.nil_append]
      exact hmap s

theorem range_filter_ge (n b : ℕ) :
    (List.range' 0 n).filter (fun i => b ≤ i) = List.range' b (n - b) := by
  induction n with
  | zero => simp
  | succ n ih =>
    rw [List.range'_concat, List.filter_append, ih]
    by_cases h : b ≤ n
    · have h1 : n + 1 - b = (n - b) + 1 := by omega
      rw [h1, List.range'_concat]
      simp only [List.filter_cons, Nat.zero_add, Nat.one_mul, h, decide_true, if_true,
        List.filter_nil]
      congr 2
      omega
    · have h1 : n + 1 - b = 0 := by omega
      have h2 : n - b = 0 := by omega
      simp [h, h1, h2]

/-! ### Memory collector -/

theorem memColl_foldl (C : Codec M) (ms : List M) (s : MemColl) :
    ms.foldl (MemColl.collect C) s =
      { chain := s.chain ++ ms.map C.ser, size := s.size + ms.length, cur := s.cur } := by
  induction ms generalizing s with
  | nil => simp
  | cons m ms ih =>
    rw [List.foldl_cons, ih]
    simp [MemColl.collect, Nat.add_assoc, Nat.add_comm 1]

theorem memColl_rel_collected (C : Codec M) (ms : List M) :
    MemColl.Rel C (ms.foldl (MemColl.collect C) MemColl.empty) ⟨ms, 0⟩ := by
  rw [memColl_foldl]
  simp [MemColl.Rel, MemColl.empty]

theorem fromFile_eq (C : Codec M) (s : MemColl) (file : List UInt8) : s.fromFile C file =
    { chain := (C.readAll file).map C.ser, size := s.size + (C.readAll file).length,
      cur := s.cur } := by
  rw [MemColl.fromFile, memColl_foldl]; simp

theorem toFile_collected (C : Codec M) (ms : List M) (s : MemColl) (h : s.chain = ms.map C.ser) :
    s.toFile C = chainFile C ms := by
  rw [MemColl.toFile, h, List.flatMap_map]
  simp [C.parse_ser, chainFile]

/-! ### File collector: writing -/

theorem fileColl_collects (C : Codec M) (ms : List M) (ks : List ℕ) (hk : ks.length = ms.length)
    (s : FileColl) (p : List UInt8) (h : s.out = some p) :
    ∃ s' q, FileColl.receiveAll C s ((ms.map Event.collect).zip ks) = .ok s' ∧
      s'.out = some q ∧ s'.file ++ q = s.file ++ p ++ chainFile C ms ∧
      s'.size = s.size + ms.length ∧ s'.fin = s.fin ∧ s'.chunk = s.chunk := by
  induction ms generalizing s p ks with
  | nil => exact ⟨s, p, by simp [FileColl.receiveAll], h, by simp [chainFile], rfl, rfl, rfl⟩
  | cons m ms ih =>
    obtain ⟨k, ks, rfl⟩ : ∃ k ks', ks = k :: ks' := by
      cases ks with
      | nil => simp at hk
      | cons k ks => exact ⟨k, ks, rfl⟩
    obtain ⟨s', q, e, h1, h2, h3, h4, h5⟩ := ih ks (by simpa using hk)
      { s with file := s.file ++ (p ++ C.frame m).take k, out := some ((p ++ C.frame m).drop k),
               size := s.size + 1 } _ rfl
    refine ⟨s', q, ?_, h1, ?_, ?_, h4, h5⟩
    · rw [← e]
      simp [FileColl.receiveAll, FileColl.receive, FileColl.collect, h]
    · rw [h2, chainFile_cons]
      simp only
      rw [List.append_assoc s.file, List.take_append_drop]
      simp
    · rw [h3]; simp; omega

theorem receive_start (C : Codec M) (k : ℕ) (s : FileColl) :
    s.receive C k (Event.start : Event M) = .ok s.start := rfl

theorem receive_finish (C : Codec M) (k : ℕ) (s : FileColl) :
    s.receive C k (Event.finish : Event M) = .ok s.finish := rfl

/-! ### Stacking -/

theorem stackVectors_ok (rows : List (List α)) (c : ℕ) (h : ∀ r ∈ rows, r.length = c)
    (hne : rows ≠ []) : stackVectors rows = .ok rows := by
  obtain ⟨r, rs, rfl⟩ := List.exists_cons_of_ne_nil hne
  have hr : r.length = c := h r (by simp)
  rw [stackVectors, vget_ok (a := r) (by simp), ok_bind, if_pos]
  rw [List.all_eq_true]
  intro x hx
  simp [h x hx, hr]

theorem stackVectors_nil : stackVectors ([] : List (List α)) = .error .ub := rfl

/-! ### Parallel loops -/

theorem parallelFor_aux (f : M → List α) (xs : List M) (order : List ℕ)
    (ho : ∀ i ∈ order, i < xs.length) (out : List (List α)) (hl : out.length = xs.length) :
    ∃ out', order.foldlM (fun out i => do
        let x ← vget xs i
        vset out i (f x)) out = .ok out' ∧ out'.length = xs.length ∧
      ∀ i, out'[i]? = if i ∈ order then (xs[i]?).map f else out[i]? := by
  induction order generalizing out with
  | nil => exact ⟨out, rfl, hl, by simp⟩
  | cons a l ih =>
    have ha : a < xs.length := ho a (by simp)
    obtain ⟨out', e, h1, h2⟩ := ih (fun i hi => ho i (by simp [hi])) (out.set a (f xs[a]))
      (by simpa using hl)
    refine ⟨out', ?_, h1, ?_⟩
    · rw [List.foldlM_cons, vget_ok (List.getElem?_eq_getElem ha), ok_bind,
        vset_ok (by omega), ok_bind, e]
    · intro i
      rw [h2]
      by_cases hi : i ∈ l
      · simp [hi]
      · by_cases hia : i = a
        · subst hia
          simp only [hi, if_false, List.mem_cons, true_or, if_true]
          rw [List.getElem?_set_self (by omega), List.getElem?_eq_getElem ha]; rfl
        · simp only [hi, if_false, List.mem_cons, hia, or_self]
          rw [List.getElem?_set_ne (Ne.symm hia)]

theorem parallelFor_eq (f : M → List α) (xs : List M) (order : List ℕ)
    (ho : order.Perm (List.range xs.length)) : parallelFor f xs order = .ok (xs.map f) := by
  obtain ⟨out, e, h1, h2⟩ := parallelFor_aux f xs order
    (fun i hi => List.mem_range.mp (ho.mem_iff.mp hi)) (List.replicate xs.length []) (by simp)
  rw [parallelFor, e]
  congr 1
  apply List.ext_getElem?
  intro i
  rw [h2 i, List.getElem?_map]
  by_cases hi : i < xs.length
  · rw [if_pos (ho.mem_iff.mpr (List.mem_range.mpr hi))]
  · rw [if_neg (fun h => hi (List.mem_range.mp (ho.mem_iff.mp h)))]
    simp [List.getElem?_eq_none (Nat.le_of_not_lt hi), hi]

section
variable {σ : Type} {wrap : Bool} {next : σ → Except Fault (Option M × σ)} {reset : σ → σ}
  {R : σ → Tape M → Prop}

theorem IsReader.evalLpdf (hR : IsReader wrap next reset R) (f : M → List α) (c : ℕ)
    (hc : ∀ m, (f m).length = c) (s : σ) (ms : List M) (hne : ms ≠ []) (h : R s ⟨ms, 0⟩)
    (fuel : ℕ) (hf : ms.length < fuel) :
    ∃ s', evalLpdf next reset f fuel s = .ok (ms.map f, s') ∧ R s' ⟨ms, 0⟩ := by
  obtain ⟨s', e, h'⟩ := hR.getWholeChain fuel s ⟨ms, 0⟩ h (by simpa [Tape.left] using hf)
  refine ⟨reset s', ?_, hR.reset h'⟩
  have hl : (⟨ms, 0⟩ : Tape M).left = ms := by simp [Tape.left]
  rw [Bayesmix.evalLpdf, e, ok_bind, hl]
  simp only
  rw [stackVectors_ok (ms.map f) c (by simpa using fun m _ => hc m) (by simpa using hne), ok_bind]

theorem IsReader.evalLpdf_empty (hR : IsReader wrap next reset R) (f : M → List α) (s : σ)
    (h : R s ⟨[], 0⟩) (fuel : ℕ) (hf : 0 < fuel) :
    Bayesmix.evalLpdf next reset f fuel s = .error .ub := by
  obtain ⟨s', e, h'⟩ := hR.getWholeChain fuel s ⟨[], 0⟩ h (by simpa [Tape.left] using hf)
  rw [Bayesmix.evalLpdf, e]; rfl

theorem IsReader.lowMemLoop (hR : IsReader wrap next reset R) (f : M → List α) (chunk : ℕ)
    (hch : 1 ≤ chunk) (sched : ℕ → List M → List ℕ)
    (hs : ∀ k xs, (sched k xs).Perm (List.range xs.length)) (fuel k : ℕ) (s : σ) (t : Tape M)
    (h : R s t) (hf : t.left.length < fuel) :
    ∃ s', lowMemLoop next f chunk sched fuel k s = .ok (t.left.map f, s') ∧
      R s' (t.atEnd wrap) := by
  induction fuel generalizing k s t with
  | zero => omega
  | succ n ih =>
    obtain ⟨s', e, h'⟩ := hR.getChunk chunk s t h
    unfold Bayesmix.lowMemLoop
    rw [e, ok_bind]
    simp only
    rw [parallelFor_eq f _ _ (hs k _), ok_bind]
    by_cases hk : chunk ≤ t.left.length
    · have ht : t.take wrap chunk = ((t.left.take chunk, true), { t with cursor := t.cursor + chunk }) := by
        rw [Tape.take, if_pos hk]
      rw [ht] at h' ⊢
      have hd : Tape.left { t with cursor := t.cursor + chunk } = t.left.drop chunk := by
        simp [Tape.left, List.drop_drop]
      obtain ⟨s'', e'', h''⟩ := ih (k + 1) s' _ h' (by rw [hd, List.length_drop]; omega)
      refine ⟨s'', ?_, h''⟩
      simp only [if_true, e'', ok_bind]
      rw [hd, ← List.map_append, List.take_append_drop]
    · have ht : t.take wrap chunk = ((t.left, false), t.atEnd wrap) := by
        rw [Tape.take, if_neg hk]
      rw [ht] at h' ⊢
      exact ⟨s', by simp, h'⟩

end

/-! ### Round-robin shards -/

/-- Elements of `xs` at the positions listed. -/
def pick (xs : List M) (is : List ℕ) : List M := is.filterMap (xs[·]?)

theorem genEvenSlices_eq (xs : List M) (num : ℕ) (hn : 0 < num) :
    genEvenSlices xs num = .ok ((List.range num).map fun j =>
      pick xs ((List.range xs.length).filter (fun i => i % num = j))) := by
  obtain ⟨s', e, h⟩ := foldlM_range_inv (fun (out : List (List M)) i => do
      if num = 0 then .error .ub
      else do
        let x ← vget xs i
        let shard ← vget out (i % num)
        vset out (i % num) (shard ++ [x]))
    (fun i out => out = (List.range num).map fun j =>
      pick xs ((List.range i).filter (fun i => i % num = j))) xs.length (by
        rintro i out hi rfl
        have hm : i % num < num := Nat.mod_lt _ hn
        refine ⟨_, ?_, rfl⟩
        rw [if_neg (by omega), vget_ok (List.getElem?_eq_getElem hi), ok_bind,
          vget_ok (a := pick xs ((List.range i).filter (fun i' => i' % num = i % num)))
            (by simp [hm]), ok_bind, vset_ok (by simpa using hm)]
        congr 1
        apply List.ext_getElem (by simp)
        intro j hj hj'
        have hjn : j < num := by simpa using hj'
        rw [List.getElem_set]
        by_cases h : i % num = j
        · subst h
          simp [List.range_succ, List.filter_append, pick, List.getElem?_eq_getElem hi]
        · simp [h, List.range_succ, List.filter_append])
    (List.replicate num []) (by
      apply List.ext_getElem (by simp)
      intro j h1 h2
      simp [pick])
  rw [genEvenSlices, e, h]

theorem flatMap_insert_perm {β : Type} (js : List ℕ) (hnd : js.Nodup) (b : ℕ) (hb : b ∈ js)
    (a : β) (g : ℕ → List β) :
    (js.flatMap fun j => if b = j then a :: g j else g j).Perm (a :: js.flatMap g) := by
  induction js with
  | nil => simp at hb
  | cons j js ih =>
    rw [List.nodup_cons] at hnd
    rw [List.flatMap_cons, List.flatMap_cons]
    by_cases h : b = j
    · subst h
      have : (js.flatMap fun j => if b = j then a :: g j else g j) = js.flatMap g := by
        apply List.flatMap_congr
        intro x hx
        rw [if_neg]
        rintro rfl; exact hnd.1 hx
      rw [if_pos rfl, this]; simp
    · have hb' : b ∈ js := by
        rcases List.mem_cons.mp hb with h' | h'
        · exact absurd h' h
        · exact h'
      rw [if_neg h]
      exact (List.Perm.append_left _ (ih hnd.2 hb')).trans List.perm_middle

theorem flatMap_filter_perm (num : ℕ) (hn : 0 < num) (l : List ℕ) :
    ((List.range num).flatMap fun j => l.filter (fun i => i % num = j)).Perm l := by
  induction l with
  | nil => simp
  | cons a l ih =>
    have : ((List.range num).flatMap fun j => (a :: l).filter (fun i => i % num = j)) =
        (List.range num).flatMap fun j => if a % num = j then
          a :: l.filter (fun i => i % num = j) else l.filter (fun i => i % num = j) := by
      apply List.flatMap_congr
      intro j _
      simp [List.filter_cons]
    rw [this]
    exact (flatMap_insert_perm _ List.nodup_range (a % num)
      (List.mem_range.mpr (Nat.mod_lt _ hn)) a _).trans (List.Perm.cons a ih)

theorem pick_range (xs : List M) : pick xs (List.range xs.length) = xs := by
  induction xs using List.reverseRecOn with
  | nil => rfl
  | append_singleton xs x ih =>
    rw [List.length_append, List.length_singleton, List.range_succ, pick, List.filterMap_append]
    have h1 : List.filterMap (fun i => (xs ++ [x])[i]?) (List.range xs.length) =
        pick xs (List.range xs.length) := by
      apply List.filterMap_congr
      intro i hi
      rw [List.getElem?_append_left (List.mem_range.mp hi)]
    rw [h1, ih]; simp

theorem vstackRows_shards (cols num : ℕ) (hn : 0 < num) (g : ℕ → List (List α)) :
    vstackRows ((List.range num).map fun j => (cols, g j)) = .ok ((List.range num).flatMap g) := by
  rw [vstackRows, vget_ok (a := (cols, g 0)) (by simp [hn]), ok_bind, if_pos (by simp)]
  rw [List.flatMap_map]

section
variable {σ : Type} {wrap : Bool} {next : σ → Except Fault (Option M × σ)} {reset : σ → σ}
  {R : σ → Tape M → Prop}

/-- The rows of the full-memory evaluation, job by job. -/
def shardRows (f : M → List α) (ms : List M) (njobs : ℕ) : List (List α) :=
  (List.range njobs).flatMap fun j =>
    (pick ms ((List.range ms.length).filter (fun i => i % njobs = j))).map f

theorem IsReader.evalFullMem (hR : IsReader wrap next reset R) (f : M → List α) (c njobs : ℕ)
    (hj : 0 < njobs) (s : σ) (ms : List M) (h : R s ⟨ms, 0⟩) (fuel : ℕ) (hf : ms.length < fuel) :
    ∃ s', evalFullMem next reset f c njobs fuel s = .ok (shardRows f ms njobs, s') ∧
      R s' ⟨ms, 0⟩ := by
  obtain ⟨s', e, h'⟩ := hR.getWholeChain fuel s ⟨ms, 0⟩ h (by simpa [Tape.left] using hf)
  refine ⟨reset s', ?_, hR.reset h'⟩
  have hl : (⟨ms, 0⟩ : Tape M).left = ms := by simp [Tape.left]
  rw [Bayesmix.evalFullMem, e, ok_bind, hl]
  simp only
  rw [genEvenSlices_eq ms njobs hj, ok_bind]
  have := vstackRows_shards c njobs hj (fun j =>
    (pick ms ((List.range ms.length).filter (fun i => i % njobs = j))).map f)
  rw [List.map_map]
  simp only [Function.comp_def]
  rw [this, ok_bind, shardRows]

end

theorem shardRows_perm (f : M → List α) (ms : List M) (njobs : ℕ) (hj : 0 < njobs) :
    (shardRows f ms njobs).Perm (ms.map f) := by
  have h1 : shardRows f ms njobs = (pick ms ((List.range njobs).flatMap fun j =>
      (List.range ms.length).filter (fun i => i % njobs = j))).map f := by
    rw [shardRows, pick, List.filterMap_flatMap, List.map_flatMap]; rfl
  rw [h1]
  apply List.Perm.map
  have h2 := (flatMap_filter_perm njobs hj (List.range ms.length)).filterMap (ms[·]?)
  have h3 := pick_range ms
  rw [pick] at h3
  rw [h3] at h2
  exact h2

theorem shardRows_one (f : M → List α) (ms : List M) : shardRows f ms 1 = ms.map f := by
  have : (List.range ms.length).filter (fun i => i % 1 = 0) = List.range ms.length := by
    rw [List.filter_eq_self]; simp [Nat.mod_one]
  simp only [shardRows, List.range_one, List.flatMap_cons, List.flatMap_nil, List.append_nil, this,
    pick_range]

/-- With at least two jobs and more states than jobs, the second row comes from state
number `njobs`. -/
theorem shardRows_second (f : M → List α) (ms : List M) (njobs : ℕ) (hj : 2 ≤ njobs)
    (hl : njobs < ms.length) : (shardRows f ms njobs)[1]? = some (f ms[njobs]) := by
  have hr : List.range ms.length = 0 :: (List.range' 1 (njobs - 1) ++
      njobs :: List.range' (njobs + 1) (ms.length - njobs - 1)) := by
    rw [List.range_eq_range']
    have h1 : ms.length = 1 + ((njobs - 1) + (1 + (ms.length - njobs - 1))) := by omega
    conv_lhs => rw [h1]
    rw [← List.range'_append_1, ← List.range'_append_1, ← List.range'_append_1]
    simp only [List.range'_one, Nat.zero_add]
    rw [show 1 + (njobs - 1) = njobs by omega]
    simp
  have hf : (List.range ms.length).filter (fun i => i % njobs = 0) = 0 :: njobs ::
      (List.range' (njobs + 1) (ms.length - njobs - 1)).filter (fun i => i % njobs = 0) := by
    rw [hr, List.filter_cons, List.filter_append, List.filter_cons]
    have : (List.range' 1 (njobs - 1)).filter (fun i => decide (i % njobs = 0)) = [] := by
      rw [List.filter_eq_nil_iff]
      intro i hi
      rw [List.mem_range'] at hi
      obtain ⟨k, hk, rfl⟩ := hi
      rw [Nat.mod_eq_of_lt (by omega)]
      simp
    rw [this]
    simp
  obtain ⟨n, rfl⟩ : ∃ n, njobs = n + 1 := ⟨njobs - 1, by omega⟩
  rw [shardRows, List.range_succ_eq_map, List.flatMap_cons, hf]
  simp only [pick, List.filterMap_cons]
  rw [List.getElem?_eq_getElem (show 0 < ms.length by omega), List.getElem?_eq_getElem hl]
  simp

end Bayesmix
