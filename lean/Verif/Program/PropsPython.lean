import Verif.Program.PropsProgram

/-!
# The command that the Python package runs

* C124: the files and names reach the program.
-/

namespace Bayesmix.Program

/-- Characters at which `str.split()` without arguments splits: those for which `str.isspace()`. -/
def pySpace (c : Char) : Bool :=
  let n := c.toNat
  (decide (9 ≤ n) && decide (n ≤ 13)) || (decide (28 ≤ n) && decide (n ≤ 32)) || n == 133 || n == 160 || n == 5760 ||
    (decide (8192 ≤ n) && decide (n ≤ 8202)) || n == 8232 || n == 8233 || n == 8239 || n == 8287 || n == 12288

/-- `str.split()`: the characters of the word read so far are in `cur`. -/
def splitGo : Str → Str → List Str
  | [], cur => if cur = [] then [] else [cur]
  | c :: cs, cur =>
    if pySpace c then (if cur = [] then splitGo cs [] else cur :: splitGo cs [])
    else splitGo cs (cur ++ [c])

/-- `cmd.split()`, `python/bayesmixpy/shell_utils.py` 9. -/
def pySplit (s : Str) : List Str := splitGo s []

/-- The options of `RUN_CMD`, `python/bayesmixpy/run.py` 113-118, each with the number of blanks before
it: a backslash at the end of a line continues the text with the blanks of the next line. -/
def pyTemplate : List (ℕ × Str) :=
  [(1, "--algo-params-file".toList), (1, "--hier-type".toList), (34, "--hier-args".toList),
   (1, "--mix-type".toList), (34, "--mix-args".toList), (1, "--coll-name".toList),
   (34, "--data-file".toList), (1, "--grid-file".toList), (34, "--dens-file".toList),
   (1, "--n-cl-file".toList), (34, "--clus-file".toList), (1, "--best-clus-file".toList)]

/-- `RUN_CMD.format(...)`, `python/bayesmixpy/run.py` 158-168, for a path of the program without
braces. -/
def pyCommand (exe : Str) (vals : List Str) : Str :=
  exe ++ (pyTemplate.zip vals).flatMap fun p => List.replicate p.1.1 ' ' ++ p.1.2 ++ ' ' :: p.2

/-- The options with their values. -/
def pyOptions (vals : List Str) : List (Str × Str) := (pyTemplate.map Prod.snd).zip vals

/-- The words of the command after the program as the program gets them: `subprocess.Popen`,
`python/bayesmixpy/shell_utils.py` 8-17. -/
def pyArgv (exe : Str) (vals : List Str) : List Str := (pySplit (pyCommand exe vals)).tail

theorem splitGo_sep (u T cur : Str) : splitGo (u ++ ' ' :: T) cur = splitGo u cur ++ splitGo T [] := by
  induction u generalizing cur with
  | nil =>
    rw [List.nil_append, splitGo, splitGo, if_pos (by decide)]
    split <;> simp_all
  | cons c u ih =>
    rw [List.cons_append, splitGo, splitGo]
    by_cases hc : pySpace c = true
    · rw [if_pos hc, if_pos hc]
      by_cases h0 : cur = []
      · rw [if_pos h0, if_pos h0, ih]
      · rw [if_neg h0, if_neg h0, ih, List.cons_append]
    · rw [if_neg hc, if_neg hc, ih]

theorem splitGo_clean (w cur : Str) (h : ∀ c ∈ w, pySpace c = false) :
    splitGo w cur = if cur ++ w = [] then [] else [cur ++ w] := by
  induction w generalizing cur with
  | nil => rw [splitGo, List.append_nil]
  | cons c w ih =>
    rw [splitGo, if_neg (by simp [h c (by simp)]), ih _ fun x hx => h x (by simp [hx])]
    simp

/-- A word: not empty and without white space. -/
def IsWord (w : Str) : Prop := w ≠ [] ∧ ∀ c ∈ w, pySpace c = false

theorem pySplit_word {w : Str} (h : IsWord w) : pySplit w = [w] := by
  unfold pySplit
  rw [splitGo_clean w [] h.2, List.nil_append, if_neg h.1]

theorem pySplit_sep (u T : Str) : pySplit (u ++ ' ' :: T) = pySplit u ++ pySplit T := splitGo_sep u T []

theorem pySplit_blanks (g : ℕ) (T : Str) : pySplit (List.replicate g ' ' ++ T) = pySplit T := by
  induction g with
  | zero => rfl
  | succ g ih =>
    rw [List.replicate_succ, List.cons_append, ← List.nil_append (' ' :: _), pySplit_sep, ih]
    rfl

theorem pySplit_gap (u T : Str) {g : ℕ} (hg : 1 ≤ g) :
    pySplit (u ++ (List.replicate g ' ' ++ T)) = pySplit u ++ pySplit T := by
  obtain ⟨k, rfl⟩ : ∃ k, g = k + 1 := ⟨g - 1, by omega⟩
  rw [List.replicate_succ, List.cons_append, pySplit_sep, pySplit_blanks]

theorem template_ok : ∀ p ∈ pyTemplate, 1 ≤ p.1 ∧ IsWord p.2 := by
  have h : ∀ p ∈ pyTemplate, 1 ≤ p.1 ∧ p.2 ≠ [] ∧ ∀ c ∈ p.2, pySpace c = false := by decide
  exact h

theorem split_text (T : List (ℕ × Str)) (hT : ∀ p ∈ T, 1 ≤ p.1 ∧ IsWord p.2) :
    ∀ (vals : List Str) (u : Str),
      pySplit (u ++ (T.zip vals).flatMap fun p => List.replicate p.1.1 ' ' ++ p.1.2 ++ ' ' :: p.2) =
        pySplit u ++ ((T.map Prod.snd).zip vals).flatMap fun p => p.1 :: pySplit p.2 := by
  induction T with
  | nil => intro vals u; simp
  | cons p T ih =>
    intro vals u
    cases vals with
    | nil => simp
    | cons v vals =>
      obtain ⟨h1, h2⟩ := hT p (by simp)
      rw [List.zip_cons_cons, List.flatMap_cons, List.map_cons, List.zip_cons_cons, List.flatMap_cons,
        List.append_assoc, List.append_assoc, pySplit_gap _ _ h1, List.cons_append, pySplit_sep, pySplit_word h2,
        ih (fun q hq => hT q (by simp [hq]))]
      simp

/-- The words of the command, for all programs and values. -/
theorem split_command (exe : Str) (vals : List Str) : pySplit (pyCommand exe vals) =
    pySplit exe ++ (pyOptions vals).flatMap fun p => p.1 :: pySplit p.2 :=
  split_text pyTemplate template_ok vals exe

theorem words_of_clean (L : List (Str × Str)) (h : ∀ p ∈ L, IsWord p.2) :
    (L.flatMap fun p => p.1 :: pySplit p.2) = words L := by
  induction L with
  | nil => rfl
  | cons p L ih =>
    rw [List.flatMap_cons, words_cons, ih fun q hq => h q (by simp [hq]), pySplit_word (h p (by simp))]
    rfl

theorem pyOptions_names (vals : List Str) (hl : vals.length = 12) :
    (pyOptions vals).map Prod.fst = pyTemplate.map Prod.snd := by
  unfold pyOptions
  rw [List.map_fst_zip]
  rw [hl]
  decide

theorem pyOptions_snd (vals : List Str) : ∀ p ∈ pyOptions vals, p.2 ∈ vals := fun p hp =>
  (List.of_mem_zip (show (p.1, p.2) ∈ _ from hp)).2

theorem template_known : ∀ n ∈ pyTemplate.map Prod.snd, n ∈ runOpts.map OptSpec.name := by decide

theorem pyOptions_complete (vals : List Str) (hl : vals.length = 12)
    (hp : ∀ v ∈ vals, IsValue v) : Complete (pyOptions vals) := by
  have hn := pyOptions_names vals hl
  refine ⟨⟨?_, fun p hp => ?_, fun p hq => hp _ (pyOptions_snd vals p hq)⟩, ?_⟩
  · rw [hn]; decide
  · exact template_known _ (hn ▸ List.mem_map_of_mem hp)
  · rw [hn]; decide

/-- **C124.** The program that the Python package starts is the one configured, with the options and
values of the call, if no path or name is empty, contains white space or looks like an option.  Missing:
names with white space (`c124_space_violated`). -/
theorem c124_command_partial (exe : Str) (vals : List Str) (hl : vals.length = 12) (he : IsWord exe)
    (hv : ∀ v ∈ vals, IsWord v ∧ IsValue v) :
    (pySplit (pyCommand exe vals)).head? = some exe ∧
    ∃ A, parseArgs (parserOf runOpts) (pyArgv exe vals) = .ok A ∧
      (∀ n v, (n, v) ∈ pyOptions vals → getArg A n = .ok v) ∧
      ∀ o ∈ runOpts, o.name ∉ pyTemplate.map Prod.snd → getArg A o.name = .ok ['"', '"'] := by
  have hs : pySplit (pyCommand exe vals) = exe :: words (pyOptions vals) := by
    rw [split_command, pySplit_word he, words_of_clean _ fun p hp => (hv _ (pyOptions_snd vals p hp)).1]
    rfl
  have hC := pyOptions_complete vals hl fun v h => (hv v h).2
  obtain ⟨A, h1, h2, h3⟩ := c120_values_partial _ hC
  refine ⟨by rw [hs]; rfl, A, ?_, h2, fun o ho hn => ?_⟩
  · unfold pyArgv
    rw [hs]
    exact h1
  · refine h3 o ho (by rw [pyOptions_names vals hl]; exact hn) fun e => hn ?_
    rw [e]
    decide

/-- **C124, violation: names with white space.** If a path or name is split into two words or more that
do not look like options, for instance because the output directory has a blank in its name, the program
refuses the command and writes nothing, whatever the other values are.  (`run_shell` does not look at
the exit status: C106.) -/
theorem c124_space_violated {Msg St α : Type} (W : Lib Msg St α) (writable : Str → Bool) (exe : Str)
    (vals : List Str) (hl : vals.length = 12) (he : IsWord exe) (i : ℕ) (v a b : Str) (more : List Str)
    (hv : vals[i]? = some v) (hs : pySplit v = a :: b :: more) (ha : IsValue a)
    (hb : IsValue b) (hbefore : ∀ w ∈ vals.take i, IsWord w ∧ IsValue w) (fs : FS) :
    runMcmc W writable (pyArgv exe vals) fs = (.status 1, fs) := by
  have hi : i < vals.length := by
    by_contra h
    rw [List.getElem?_eq_none (by omega)] at hv
    cases hv
  have hT : (pyTemplate.map Prod.snd).length = 12 := by decide
  obtain ⟨n, hn⟩ : ∃ n, n = (pyTemplate.map Prod.snd)[i]'(by omega) := ⟨_, rfl⟩
  have hvi : vals[i] = v := by
    rw [List.getElem?_eq_getElem hi] at hv
    exact Option.some.inj hv
  obtain ⟨pre, hpre⟩ : ∃ pre, pre = (pyOptions vals).take i := ⟨_, rfl⟩
  have hpre' : pre = ((pyTemplate.map Prod.snd).take i).zip (vals.take i) := by
    rw [hpre]
    unfold pyOptions
    exact List.take_zipWith
  have hlen : i < (pyOptions vals).length := by
    unfold pyOptions
    rw [List.length_zip]
    omega
  obtain ⟨post, hpost⟩ : ∃ post, post = (pyOptions vals).drop (i + 1) := ⟨_, rfl⟩
  have hsplit : pyOptions vals = pre ++ (n, v) :: post := by
    have hx : (pyOptions vals)[i] = (n, v) := by
      rw [hn, ← hvi]
      exact List.getElem_zip
    rw [hpre, hpost, ← hx, ← List.drop_eq_getElem_cons, List.take_append_drop]
  have hprew : ∀ p ∈ pre, IsWord p.2 ∧ IsValue p.2 := by
    intro p hp
    rw [hpre'] at hp
    exact hbefore _ (List.of_mem_zip (show (p.1, p.2) ∈ _ from hp)).2
  have hcmd : pyArgv exe vals = words (pre ++ [(n, a)]) ++ b :: (more ++
      post.flatMap fun p => p.1 :: pySplit p.2) := by
    unfold pyArgv
    rw [split_command, pySplit_word he, hsplit, List.flatMap_append, List.flatMap_cons,
      words_of_clean pre fun p hp => (hprew p hp).1, hs, words_append]
    simp [words]
  have hnames : (pre ++ [(n, a)]).map Prod.fst <+: pyTemplate.map Prod.snd := by
    rw [← pyOptions_names vals hl, hsplit, List.map_append, List.map_append]
    exact ⟨post.map Prod.fst, by simp⟩
  have hG : Given runOpts (pre ++ [(n, a)]) := by
    refine ⟨hnames.sublist.nodup (by decide), fun p hp => ?_, fun p hp => ?_⟩
    · exact template_known _ (hnames.subset (List.mem_map_of_mem hp))
    · rcases List.mem_append.mp hp with hp | hp
      · exact (hprew p hp).2
      · obtain rfl := List.mem_singleton.mp hp
        exact ha
  have hparse : parseArgs (parserOf runOpts) (pyArgv exe vals) = .error .fail := by
    unfold parseArgs
    have h := runOpts_good.parse_words (pre ++ [(n, a)]) [] (by simpa using hG) (b :: (more ++
      post.flatMap fun p => p.1 :: pySplit p.2))
    rw [stateOf_nil] at h
    rw [hcmd, h, parseLoop, if_pos ((isPositional_iff b).mpr hb)]
  unfold runMcmc
  rw [hparse]

/-- **C124, violation: the path of the program.** If the path of the program has a blank in it, another
program is started. -/
theorem c124_exe_violated (a b : Str) (vals : List Str) (ha : IsWord a) :
    (pySplit (pyCommand (a ++ ' ' :: b) vals)).head? = some a := by
  rw [split_command, pySplit_sep, pySplit_word ha]
  rfl

/-- The values of a call with an output directory. -/
def exVals (dir : String) : List Str :=
  [(dir ++ "/algo_params.asciipb").toList, "NNIG".toList, (dir ++ "/hier_params.asciipb").toList, "DP".toList,
   (dir ++ "/mix_params.asciipb").toList, "memory".toList, (dir ++ "/data.csv").toList, emptyStr, emptyStr,
   (dir ++ "/nclus.csv").toList, (dir ++ "/clus.csv").toList, (dir ++ "/best_clus.csv").toList]

example : (exVals "/tmp/out").length = 12 ∧ IsWord "/opt/run_mcmc".toList ∧
    ∀ v ∈ exVals "/tmp/out", IsWord v ∧ IsValue v := by
  unfold IsWord
  decide

example : (exVals "/tmp/my results")[0]? = some "/tmp/my results/algo_params.asciipb".toList ∧
    pySplit "/tmp/my results/algo_params.asciipb".toList = ["/tmp/my".toList, "results/algo_params.asciipb".toList] ∧
    IsValue "/tmp/my".toList ∧ IsValue "results/algo_params.asciipb".toList := by
  decide

end Bayesmix.Program
