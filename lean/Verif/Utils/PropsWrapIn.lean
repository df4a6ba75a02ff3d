import Verif.Utils.PropsWrappers

/-!
# What the wrappers hand to the program and return

* C130: the program gets the inputs of the call, and the call returns what the program wrote.
-/

namespace Bayesmix.Wrappers

/-! ### C130 -/

/-- Within `run o · fs` the program is started once, with the arguments `a` and the files `f`: what
the call does depends on nothing but what the program does then, and files outside the working directory
are afterwards what the program made of them. -/
structure Starts (run : Opts → Exe → FS → Except Fault Result × FS) (o : Opts) (fs : FS) (a : Args) (f : FS) :
    Prop where
  once : ∀ exe exe' : Exe, exe a f = exe' a f → run o exe fs = run o exe' fs
  after : ∀ (exe : Exe) (q : Path), q.dir ≠ o.dir → (run o exe fs).2 q = (exe a f).2 q

/-- The message that an argument stands for: the content of the file with that name if there is one, the
text itself otherwise. -/
def message (fs : FS) (p : Param) : String := (fs p.asPath).getD p.text

/-- The names of the files that the wrappers and the program write. -/
def reserved : List String :=
  ["hier_params.asciipb", "mix_params.asciipb", "algo_params.asciipb", "data.csv", "dens_grid.csv", "chains.recordio",
    "eval_dens.csv", "n_clus.csv", "clus.csv", "best_clus.csv"]

/-- The name of a parameter is not the name of another file that is written in the working directory; it may
be the file with the same parameter, for instance of an earlier run. -/
def Clear (o : Opts) (p : Param) (own : String) : Prop := ∀ n ∈ reserved, n ≠ own → p.asPath ≠ ⟨o.dir, n⟩

/-- The files `f` are what the program needs: its arguments name files with the messages, the data and
the grid, and the outputs that were asked for are different files, none of them an input. -/
structure Supplied (o : Opts) (fs : FS) (a : Args) (f : FS) : Prop where
  algo : f a.algoFile = some (message fs o.algo)
  hier : f a.hierFile = some (message fs o.hier)
  mix : f a.mixFile = some (message fs o.mix)
  data : f a.dataFile = some o.data
  grid : a.gridFile.map f = o.grid.map some
  dens : a.densFile.isSome = o.grid.isSome
  nCl : a.nClFile.isSome = o.numClusters
  clus : a.clusFile.isSome = o.clusters
  best : a.bestFile.isSome = o.bestClus
  coll : a.collFile.isSome = o.chains
  distinct : a.outputs.Nodup
  inputs : ∀ q ∈ a.outputs, q ≠ a.algoFile ∧ q ≠ a.hierFile ∧ q ≠ a.mixFile ∧ q ≠ a.dataFile ∧ a.gridFile ≠ some q

/-- The results are what the program wrote into the files it was asked to write. -/
structure Returned (a : Args) (f' : FS) (r : Result) : Prop where
  dens : r.evalDens = a.densFile.bind f'
  nCl : r.nClus = a.nClFile.bind f'
  clus : r.clus = a.clusFile.bind f'
  best : r.bestClus = a.bestFile.bind f'
  coll : r.chain = a.collFile.bind f'

/-- What is wanted: the program is started once, with the inputs of the call, and if the call returns
something, it returns the files that the program wrote. -/
def HandsOver (run : Opts → Exe → FS → Except Fault Result × FS) (o : Opts) (fs : FS) : Prop :=
  ∃ a f, Starts run o fs a f ∧ Supplied o fs a f ∧
    ∀ exe r, (run o exe fs).1 = .ok r → Returned a (exe a f).2 r

theorem readBack_bind {fs : FS} {p : Option Path} {x : Option String} (h : readBack fs p = .ok x) :
    x = p.bind fs := by
  cases p with
  | none => exact (Except.ok.inj h).symm
  | some p =>
    simp only [readBack] at h
    cases hp : fs p with
    | none => rw [hp] at h; cases h
    | some c => rw [hp] at h; simp [← Except.ok.inj h, hp]

theorem readResults_returned {a : Args} {fs : FS} {r : Result} (h : readResults a fs = .ok r) :
    Returned a fs r := by
  unfold readResults at h
  cases h1 : readBack fs a.densFile with
  | error e => rw [h1] at h; cases h
  | ok x1 =>
  rw [h1, ok_bind] at h
  cases h2 : readBack fs a.nClFile with
  | error e => rw [h2] at h; cases h
  | ok x2 =>
  rw [h2, ok_bind] at h
  cases h3 : readBack fs a.clusFile with
  | error e => rw [h3] at h; cases h
  | ok x3 =>
  rw [h3, ok_bind] at h
  cases h4 : readBack fs a.bestFile with
  | error e => rw [h4] at h; cases h
  | ok x4 =>
  rw [h4, ok_bind] at h
  cases h5 : readBack fs a.collFile with
  | error e => rw [h5] at h; cases h
  | ok x5 =>
  rw [h5, ok_bind] at h
  obtain rfl := Except.ok.inj h
  exact ⟨readBack_bind h1, readBack_bind h2, readBack_bind h3, readBack_bind h4, readBack_bind h5⟩

/-- A parameter after it was written: its file holds the message, other files are as before. -/
theorem maybePrint_holds (p : Param) (name dir : String) (fs : FS) :
    (maybePrint p name dir fs).2 (maybePrint p name dir fs).1 = some (message fs p) ∧
      ((maybePrint p name dir fs).1 = p.asPath ∨ (maybePrint p name dir fs).1 = ⟨dir, name ++ ".asciipb"⟩) := by
  unfold maybePrint message
  split
  · rename_i h
    obtain ⟨c, hc⟩ := Option.isSome_iff_exists.mp h
    simp [hc]
  · rename_i h
    have : fs p.asPath = none := by simpa using h
    simp [FS.write, this]

/-- The files that hold the parameters, the data and the grid before the program starts. -/
theorem written (o : Opts) (fs : FS)
    (hh : Clear o o.hier "hier_params.asciipb") (hm : Clear o o.mix "mix_params.asciipb")
    (ha : Clear o o.algo "algo_params.asciipb") :
    Supplied o fs (mkArgs o (writeParams o fs).1.1 (writeParams o fs).1.2.1 (writeParams o fs).1.2.2)
      (writeInputs o (writeParams o fs).2) := by
  obtain ⟨H, hH⟩ : ∃ H, H = maybePrint o.hier "hier_params" o.dir fs := ⟨_, rfl⟩
  obtain ⟨M, hM⟩ : ∃ M, M = maybePrint o.mix "mix_params" o.dir H.2 := ⟨_, rfl⟩
  obtain ⟨A, hA⟩ : ∃ A, A = maybePrint o.algo "algo_params" o.dir M.2 := ⟨_, rfl⟩
  have hw : writeParams o fs = ((H.1, M.1, A.1), A.2) := by rw [hA, hM, hH]; rfl
  rw [hw]
  dsimp only
  obtain ⟨hH1, hH2⟩ := maybePrint_holds o.hier "hier_params" o.dir fs
  obtain ⟨hM1, hM2⟩ := maybePrint_holds o.mix "mix_params" o.dir H.2
  obtain ⟨hA1, hA2⟩ := maybePrint_holds o.algo "algo_params" o.dir M.2
  rw [← hH] at hH1 hH2
  rw [← hM] at hM1 hM2
  rw [← hA] at hA1 hA2
  have hMo : ∀ q : Path, q ≠ ⟨o.dir, "mix_params.asciipb"⟩ → M.2 q = H.2 q := fun q hq => by
    rw [hM]; exact maybePrint_other hq
  have hAo : ∀ q : Path, q ≠ ⟨o.dir, "algo_params.asciipb"⟩ → A.2 q = M.2 q := fun q hq => by
    rw [hA]; exact maybePrint_other hq
  have hHo : ∀ q : Path, q ≠ ⟨o.dir, "hier_params.asciipb"⟩ → H.2 q = fs q := fun q hq => by
    rw [hH]; exact maybePrint_other hq
  have hmm : message H.2 o.mix = message fs o.mix := by
    unfold message; rw [hHo _ (hm _ (by decide) (by decide))]
  have hma : message M.2 o.algo = message fs o.algo := by
    unfold message; rw [hMo _ (ha _ (by decide) (by decide)), hHo _ (ha _ (by decide) (by decide))]
  -- the files of the parameters are none of the other inputs
  have q1 : ∀ n ∈ reserved, n ≠ "hier_params.asciipb" → H.1 ≠ ⟨o.dir, n⟩ := by
    intro n hn hx
    rcases hH2 with e | e
    · rw [e]; exact hh n hn hx
    · rw [e]; intro e'; exact hx (Path.mk.inj e').2.symm
  have q2 : ∀ n ∈ reserved, n ≠ "mix_params.asciipb" → M.1 ≠ ⟨o.dir, n⟩ := by
    intro n hn hx
    rcases hM2 with e | e
    · rw [e]; exact hm n hn hx
    · rw [e]; intro e'; exact hx (Path.mk.inj e').2.symm
  have q3 : ∀ n ∈ reserved, n ≠ "algo_params.asciipb" → A.1 ≠ ⟨o.dir, n⟩ := by
    intro n hn hx
    rcases hA2 with e | e
    · rw [e]; exact ha n hn hx
    · rw [e]; intro e'; exact hx (Path.mk.inj e').2.symm
  have hin : ∀ q : Path, q ≠ ⟨o.dir, "data.csv"⟩ → (∀ g, o.grid = some g → q ≠ ⟨o.dir, "dens_grid.csv"⟩) →
      writeInputs o A.2 q = A.2 q := by
    intro q h1 h2
    unfold writeInputs
    cases hg : o.grid with
    | none => simp [FS.write, h1]
    | some g => simp [FS.write, h1, h2 g hg]
  refine ⟨?_, ?_, ?_, ?_, ?_, ?_, ?_, ?_, ?_, ?_, ?_, ?_⟩
  · change writeInputs o A.2 A.1 = _
    rw [hin _ (q3 _ (by decide) (by decide)) (fun g hg => q3 _ (by decide) (by decide)), hA1, hma]
  · change writeInputs o A.2 H.1 = _
    rw [hin _ (q1 _ (by decide) (by decide)) (fun g hg => q1 _ (by decide) (by decide)),
      hAo _ (q1 _ (by decide) (by decide)), hMo _ (q1 _ (by decide) (by decide)), hH1]
  · change writeInputs o A.2 M.1 = _
    rw [hin _ (q2 _ (by decide) (by decide)) (fun g hg => q2 _ (by decide) (by decide)),
      hAo _ (q2 _ (by decide) (by decide)), hM1, hmm]
  · change writeInputs o A.2 ⟨o.dir, "data.csv"⟩ = _
    unfold writeInputs
    cases hg : o.grid with
    | none => simp [FS.write]
    | some g => simp [FS.write]
  · cases hg : o.grid with
    | none => simp [mkArgs, wanted, hg]
    | some g => simp [mkArgs, wanted, hg, writeInputs, FS.write]
  · simp only [mkArgs, wanted]; split <;> simp_all
  · simp only [mkArgs, wanted]; split <;> simp_all
  · simp only [mkArgs, wanted]; split <;> simp_all
  · simp only [mkArgs, wanted]; split <;> simp_all
  · simp only [mkArgs, wanted]; split <;> simp_all
  · have hdec : ∀ a b c d e : Bool, ((((wanted a (⟨o.dir, "chains.recordio"⟩ : Path)).toList ++
        (wanted b ⟨o.dir, "eval_dens.csv"⟩).toList) ++ (wanted c ⟨o.dir, "n_clus.csv"⟩).toList ++
        (wanted d ⟨o.dir, "clus.csv"⟩).toList ++ (wanted e ⟨o.dir, "best_clus.csv"⟩).toList).Nodup) := by
      intro a b c d e
      cases a <;> cases b <;> cases c <;> cases d <;> cases e <;> simp [wanted]
    exact hdec _ _ _ _ _
  · intro q hq
    have hq' : ∃ n ∈ ["chains.recordio", "eval_dens.csv", "n_clus.csv", "clus.csv", "best_clus.csv"],
        q = ⟨o.dir, n⟩ := by
      simp only [Args.outputs, mkArgs, wanted, List.mem_append] at hq
      rcases hq with (((hn | hn) | hn) | hn) | hn <;> split at hn <;> simp at hn <;> simp [hn]
    clear hq
    obtain ⟨n, hn, rfl⟩ := hq'
    have hn' : n ∈ reserved := by revert n; decide
    refine ⟨?_, ?_, ?_, ?_, ?_⟩
    · refine (q3 n hn' ?_).symm; clear hn'; revert n; decide
    · refine (q1 n hn' ?_).symm; clear hn'; revert n; decide
    · refine (q2 n hn' ?_).symm; clear hn'; revert n; decide
    · intro e
      have := (Path.mk.inj e).2
      subst this
      revert hn; decide
    · intro e
      simp only [mkArgs, wanted] at e
      split at e
      · have := (Path.mk.inj (Option.some.inj e)).2
        subst this
        revert hn; decide
      · cases e

/-- The program is started once: arguments and files are determined. -/
theorem Starts.unique {run : Opts → Exe → FS → Except Fault Result × FS} {o : Opts} {fs : FS} {a a' : Args}
    {f f' : FS} (h : Starts run o fs a f) (h' : Starts run o fs a' f') : a = a' ∧ f = f' := by
  classical
  obtain ⟨q, hq⟩ : ∃ q : Path, q.dir ≠ o.dir := ⟨⟨o.dir ++ "x", ""⟩, by
    intro e
    have := congrArg String.length e
    simp [String.length_append] at this⟩
  have h1 := h.after (fun b g => (true, fun _ => if b = a ∧ g = f then some "" else none)) q hq
  have h2 := h'.after (fun b g => (true, fun _ => if b = a ∧ g = f then some "" else none)) q hq
  rw [h1] at h2
  simp only [and_self, if_true] at h2
  by_contra hne
  rw [if_neg fun e => hne ⟨e.1.symm, e.2.symm⟩] at h2
  cases h2

theorem pyRun_starts (o : Opts) (fs : FS) :
    Starts pyRun o fs (mkArgs o (writeParams o fs).1.1 (writeParams o fs).1.2.1 (writeParams o fs).1.2.2)
      (writeInputs o (writeParams o fs).2) := by
  refine ⟨?_, ?_⟩
  · intro exe exe' h
    unfold pyRun
    simp only
    rw [h]
  · intro exe q hq
    unfold pyRun
    simp only
    split
    · rfl
    · dsimp only
      split
      · simp [FS.rmdir, hq]
      · rfl

/-- **C130, Python.** The Python wrapper starts the program once, with the messages, the data and the grid
of the call in its input files, and returns what the program wrote into its output files. -/
theorem c130_python (o : Opts) (fs : FS) (hh : Clear o o.hier "hier_params.asciipb")
    (hm : Clear o o.mix "mix_params.asciipb") (ha : Clear o o.algo "algo_params.asciipb") :
    HandsOver pyRun o fs := by
  refine ⟨_, _, pyRun_starts o fs, written o fs hh hm ha, ?_⟩
  · intro exe r h
    unfold pyRun at h
    simp only at h
    split at h
    · cases h
    · rename_i h'
      obtain rfl := Except.ok.inj h
      exact readResults_returned h'

/-- **C130, violation: names that are taken.** If the prior of the mixing is in a file `hier_params.asciipb` of
the output directory and the prior of the hierarchy is given as text, the program is given the prior of the
hierarchy for both. -/
theorem c130_taken_violated (o : Opts) (fs : FS) (c : String) (hm : o.mix.asPath = ⟨o.dir, "hier_params.asciipb"⟩)
    (hc : fs o.mix.asPath = some c) (hh : fs o.hier.asPath = none) (hne : c ≠ o.hier.text) :
    (∃ a f, Starts pyRun o fs a f ∧ a.mixFile = o.mix.asPath ∧ a.hierFile = o.mix.asPath ∧
      f o.mix.asPath = some o.hier.text) ∧ ¬ HandsOver pyRun o fs := by
  have hH : maybePrint o.hier "hier_params" o.dir fs = (o.mix.asPath, fs.write o.mix.asPath o.hier.text) := by
    unfold maybePrint
    rw [hh, hm]
    rfl
  have hM : maybePrint o.mix "mix_params" o.dir (fs.write o.mix.asPath o.hier.text) =
      (o.mix.asPath, fs.write o.mix.asPath o.hier.text) := by
    unfold maybePrint
    simp [FS.write]
  have h1 : (writeParams o fs).1.1 = o.mix.asPath := by
    unfold writeParams
    simp only [hH]
  have h2 : (writeParams o fs).1.2.1 = o.mix.asPath := by
    unfold writeParams
    simp only [hH, hM]
  have h3 : writeInputs o (writeParams o fs).2 o.mix.asPath = some o.hier.text := by
    have hw : (writeParams o fs).2 o.mix.asPath = some o.hier.text := by
      unfold writeParams
      simp only [hH, hM]
      rw [maybePrint_other (by rw [hm]; intro e; exact absurd (Path.mk.inj e).2 (by decide))]
      simp [FS.write]
    have n1 : o.mix.asPath ≠ ⟨o.dir, "data.csv"⟩ := by
      rw [hm]; intro e; exact absurd (Path.mk.inj e).2 (by decide)
    have n2 : o.mix.asPath ≠ ⟨o.dir, "dens_grid.csv"⟩ := by
      rw [hm]; intro e; exact absurd (Path.mk.inj e).2 (by decide)
    unfold writeInputs
    cases o.grid with
    | none => simp only [FS.write]; rw [if_neg n1, hw]
    | some g => simp only [FS.write]; rw [if_neg n2, if_neg n1, hw]
  have hs := pyRun_starts o fs
  refine ⟨⟨_, _, hs, h2, h1, h3⟩, ?_⟩
  rintro ⟨a, f, h, hsup, _⟩
  obtain ⟨rfl, rfl⟩ := h.unique hs
  have h4 : writeInputs o (writeParams o fs).2 (writeParams o fs).1.2.1 = some (message fs o.mix) := hsup.mix
  rw [h2, h3] at h4
  apply hne
  rw [Option.some.inj h4]
  unfold message
  rw [hc]
  rfl

/-- **C130, R.** The R wrapper starts the program once, with the messages, the data and the grid of the call
in its input files, and returns what the program wrote into its output files. -/
theorem c130_r (o : Opts) (fs : FS) (hh : Clear o o.hier "hier_params.asciipb")
    (hm : Clear o o.mix "mix_params.asciipb") (ha : Clear o o.algo "algo_params.asciipb") :
    HandsOver rRun o fs := by
  have hc : ∀ (p : Param) (own : String), own ∉ rCreated → Clear o p own →
      message (rCreate o.dir fs) p = message fs p := by
    intro p own ho hp
    unfold message
    rw [rCreate_other]
    rintro ⟨h1, h2⟩
    refine hp p.asPath.name ?_ (fun e => ho (e ▸ h2)) (by rw [← h1])
    revert h2
    generalize p.asPath.name = n
    revert n
    decide
  have hw := written o (rCreate o.dir fs) hh hm ha
  refine ⟨_, _, ⟨?_, ?_⟩, { hw with
    algo := by rw [← hc _ _ (by decide) ha]; exact hw.algo
    hier := by rw [← hc _ _ (by decide) hh]; exact hw.hier
    mix := by rw [← hc _ _ (by decide) hm]; exact hw.mix }, ?_⟩
  · intro exe exe' h
    unfold rRun
    simp only
    rw [h]
  · intro exe q hq
    unfold rRun
    simp only
    split
    · split
      · rfl
      · dsimp only
        split
        · simp [FS.rmdir, hq]
        · rfl
    · simp [FS.rmdir, hq]
  · intro exe r h
    unfold rRun at h
    simp only at h
    split at h
    · split at h
      · cases h
      · rename_i h'
        obtain rfl := Except.ok.inj h
        exact readResults_returned h'
    · cases h

example (d : Option String) : Clear (exOpts d) (exOpts d).hier "hier_params.asciipb" ∧
    Clear (exOpts d) (exOpts d).mix "mix_params.asciipb" ∧ Clear (exOpts d) (exOpts d).algo "algo_params.asciipb" := by
  refine ⟨?_, ?_, ?_⟩ <;> intro n hn _ h <;>
    · have := (Path.mk.inj h).2
      subst this
      revert hn
      decide

/-- The prior of the mixing in a file with the name of the other prior. -/
example : ∃ (o : Opts) (fs : FS) (c : String), o.mix.asPath = ⟨o.dir, "hier_params.asciipb"⟩ ∧
    fs o.mix.asPath = some c ∧ fs o.hier.asPath = none ∧ c ≠ o.hier.text :=
  ⟨{ exOpts (some "out") with mix := ⟨⟨"out", "hier_params.asciipb"⟩, ""⟩ }, exFS, "old", by decide, by decide, by decide,
    by decide⟩

/-- The hierarchy of an earlier run in the same directory. -/
example : Clear { exOpts (some "out") with hier := ⟨⟨"out", "hier_params.asciipb"⟩, ""⟩ }
    ⟨⟨"out", "hier_params.asciipb"⟩, ""⟩ "hier_params.asciipb" := by
  intro n _ h1 h
  exact h1 (Path.mk.inj h).2.symm

end Bayesmix.Wrappers
