import Verif.Program.Build
import Mathlib.Tactic.NormNum

/-!
# C148: `run_mcmc` calls the executable of the last successful build
-/

namespace Bayesmix.Program
open Bayesmix

theorem fileValue_append (f g : List (Str × Str)) (k : Str) :
    fileValue (f ++ g) k = (fileValue g k).or (fileValue f k) := by
  have h : ∀ (g : List (Str × Str)) (o : Option Str),
      g.foldl (fun o p => if p.1 = k then some p.2 else o) o = (fileValue g k).or o := by
    intro g
    induction g with
    | nil => intro o; rfl
    | cons p g ih =>
      intro o
      rw [fileValue, List.foldl_cons, List.foldl_cons, ih, ih]
      by_cases e : p.1 = k
      · simp only [if_pos e]
        cases fileValue g k <;> rfl
      · simp only [if_neg e]
        cases fileValue g k <;> rfl
  rw [fileValue, List.foldl_append, h]
  rfl

theorem fileValue_cons (p : Str × Str) (f : List (Str × Str)) (k : Str) :
    fileValue (p :: f) k = (fileValue f k).or (if p.1 = k then some p.2 else none) :=
  fileValue_append [p] f k

theorem fileValue_none {f : List (Str × Str)} {k : Str} (h : f.any (fun p => p.1 = k) = false) :
    fileValue f k = none := by
  induction f with
  | nil => rfl
  | cons p f ih =>
    rw [List.any_cons, Bool.or_eq_false_iff] at h
    rw [fileValue_cons, ih h.2, if_neg (by simpa using h.1)]
    rfl

theorem fileValue_setKey (k v : Str) (f : List (Str × Str)) : fileValue (setKey k v f) k = some v := by
  have h : ∀ f : List (Str × Str), fileValue (f.map fun p => if p.1 = k then (k, v) else p) k =
      if f.any (fun p => p.1 = k) then some v else none := by
    intro f
    induction f with
    | nil => rfl
    | cons p f ih =>
      rw [List.map_cons, fileValue_cons, ih, List.any_cons]
      by_cases e : p.1 = k
      · by_cases hf : (f.any fun p => decide (p.1 = k)) = true <;> simp [e, hf]
      · by_cases hf : (f.any fun p => decide (p.1 = k)) = true <;> simp [e, hf]
  unfold setKey
  by_cases hf : (f.any fun p => decide (p.1 = k)) = true
  · rw [if_pos hf, h, if_pos hf]
  · rw [if_neg hf, fileValue_append]
    simp [fileValue]

/-! ### R -/

/-- The executable of a build that succeeds: the arguments are a whole number and a string, the
directory can be entered, and both programs end with status zero. -/
def RGood (dirname : Str → Str) (home : Str) (exe : Str) : REvent → Prop
  | .build nproc subdir dirOk configure build => ∃ (k : ℤ) (sub : Str), nproc = some (k : ℚ) ∧
      subdir = some sub ∧ dirOk = true ∧ configure = 0 ∧ build = 0 ∧
      exe = dirname (dirname home) ++ "/".toList ++ sub ++ "/run_mcmc".toList
  | _ => False

theorem keys_ne : exeKey ≠ homeKey ∧ tbbKey ≠ homeKey ∧ tbbKey ≠ exeKey ∧ homeKey ≠ exeKey := by
  decide

theorem rRead_read (s : Session) : readRenviron (readRenviron s) = readRenviron s := by
  unfold readRenviron
  congr 1
  funext k
  dsimp only
  cases fileValue s.file k <;> rfl

/-- What a build does to a session with the home directory in the file. -/
theorem rBuild_cases (dirname : Str → Str) {home : Str} (hh : home ≠ []) {s : Session}
    (hf : fileValue s.file homeKey = some home) (nproc : Option ℚ) (subdir : Option Str) (dirOk : Bool)
    (configure build : ℤ) :
    (∃ exe tbb, RGood dirname home exe (.build nproc subdir dirOk configure build) ∧
      rBuild dirname nproc subdir dirOk configure build s =
        (.ok (), readRenviron { readRenviron s with file := s.file ++ [(exeKey, exe), (tbbKey, tbb)] })) ∨
    (∀ exe, ¬ RGood dirname home exe (.build nproc subdir dirOk configure build)) ∧
      ∃ t, rBuild dirname nproc subdir dirOk configure build s = (.error .throw, t) ∧
        (t = s ∨ t = readRenviron s) := by
  have hget : getenv (readRenviron s) homeKey = home := by simp [getenv, readRenviron, hf]
  unfold rBuild
  cases nproc with
  | none => exact Or.inr ⟨fun exe ⟨k, sub, h, _⟩ => by simp at h, s, rfl, Or.inl rfl⟩
  | some np =>
    cases subdir with
    | none => exact Or.inr ⟨fun exe ⟨k, sub, _, h, _⟩ => by simp at h, s, rfl, Or.inl rfl⟩
    | some sub =>
      dsimp only
      rw [hget, if_neg hh]
      by_cases h1 : dirOk = false
      · rw [if_pos h1]
        refine Or.inr ⟨fun exe ⟨k, sub, _, _, h, _⟩ => ?_, _, rfl, Or.inr rfl⟩
        simp [h] at h1
      rw [if_neg h1]
      by_cases h2 : configure ≠ 0
      · rw [if_pos h2]
        exact Or.inr ⟨fun exe ⟨k, sub, _, _, _, h, _⟩ => h2 h, _, rfl, Or.inr rfl⟩
      rw [if_neg h2]
      by_cases h3 : np.den ≠ 1
      · rw [if_pos h3]
        refine Or.inr ⟨fun exe ⟨k, sub, h, _⟩ => h3 ?_, _, rfl, Or.inr rfl⟩
        rw [Option.some.inj h]
        rfl
      rw [if_neg h3]
      by_cases h4 : build ≠ 0
      · rw [if_pos h4]
        exact Or.inr ⟨fun exe ⟨k, sub, _, _, _, _, h, _⟩ => h4 h, _, rfl, Or.inr rfl⟩
      rw [if_neg h4]
      push Not at h2 h3 h4
      refine Or.inl ⟨_, _, ⟨np.num, sub, ?_, rfl, by simpa using h1, h2, h4, ?_⟩, rfl⟩
      · rw [Rat.coe_int_num_of_den_eq_one h3]
      · simp [exeIn]

theorem rStep_good {dirname : Str → Str} {home : Str} (hh : home ≠ []) {s : Session}
    (hf : fileValue s.file homeKey = some home) {e : REvent} {exe : Str} (h : RGood dirname home exe e) :
    fileValue (rStep dirname s e).file exeKey = some exe ∧
      fileValue (rStep dirname s e).file homeKey = some home := by
  cases e with
  | build nproc subdir dirOk configure build =>
    rcases rBuild_cases dirname hh hf nproc subdir dirOk configure build with
      ⟨exe', tbb, hg, e⟩ | ⟨hb, -⟩
    · obtain rfl : exe = exe' := by
        obtain ⟨k, sub, _, h1, _, _, _, h2⟩ := h
        obtain ⟨k', sub', _, h1', _, _, _, h2'⟩ := hg
        rw [h1] at h1'
        rw [h2, h2', Option.some.inj h1']
      rw [rStep, e]
      obtain ⟨k1, k2, k3, -⟩ := keys_ne
      simp only [readRenviron, fileValue_append, fileValue_cons, if_neg k1, if_neg k2, if_neg k3, hf]
      exact ⟨by simp [fileValue], by simp [fileValue]⟩
    · exact absurd h (hb exe)
  | run => exact h.elim
  | restart env => exact h.elim
  | detach => exact h.elim

theorem rStep_bad {dirname : Str → Str} {home : Str} (hh : home ≠ []) {s : Session}
    (hf : fileValue s.file homeKey = some home) {e : REvent} (h : ∀ exe, ¬ RGood dirname home exe e) :
    (rStep dirname s e).file = s.file := by
  cases e with
  | build nproc subdir dirOk configure build =>
    rcases rBuild_cases dirname hh hf nproc subdir dirOk configure build with
      ⟨exe', tbb, hg, -⟩ | ⟨-, t, e, rfl | rfl⟩
    · exact absurd hg (h exe')
    · rw [rStep, e]
    · rw [rStep, e]
      rfl
  | run => rfl
  | restart env => rfl
  | detach => rfl

theorem rHist_home {dirname : Str → Str} {home : Str} (hh : home ≠ []) (evs : List REvent) {s : Session}
    (hf : fileValue s.file homeKey = some home) :
    fileValue (evs.foldl (rStep dirname) s).file homeKey = some home := by
  induction evs generalizing s with
  | nil => exact hf
  | cons e evs ih =>
    refine ih ?_
    by_cases h : ∃ exe, RGood dirname home exe e
    · exact (rStep_good hh hf h.choose_spec).2
    · rw [rStep_bad hh hf fun exe he => h ⟨exe, he⟩]
      exact hf

theorem rHist_bad {dirname : Str → Str} {home : Str} (hh : home ≠ []) (evs : List REvent) {s : Session}
    (hf : fileValue s.file homeKey = some home) (h : ∀ e ∈ evs, ∀ exe, ¬ RGood dirname home exe e) :
    (evs.foldl (rStep dirname) s).file = s.file := by
  induction evs generalizing s with
  | nil => rfl
  | cons e evs ih =>
    have hb := rStep_bad hh hf (h e List.mem_cons_self)
    rw [List.foldl_cons, ih (by rw [hb]; exact hf) fun e' he' => h e' (List.mem_cons_of_mem _ he'), hb]

theorem installed_home (home : Str) (env : Vars) :
    fileValue (rInstalled home env).file homeKey = some home := by
  simp [rInstalled, fileValue]

theorem rExe_read (s : Session) : rExe (readRenviron s) = rExe s := by
  unfold rExe
  rw [rRead_read]

/-- **C148, R, runs.** After any sequence of builds, runs, restarts and detachments, `run_mcmc` calls the
executable of the last build that succeeded, whatever the variables of the processes were. -/
theorem c148_r_runs (dirname : Str → Str) {home : Str} (hh : home ≠ []) (env : Vars)
    (before after : List REvent) (e : REvent) (exe : Str) (he : RGood dirname home exe e)
    (hlast : ∀ e' ∈ after, ∀ exe', ¬ RGood dirname home exe' e') :
    rExe ((before ++ e :: after).foldl (rStep dirname) (rInstalled home env)) = .ok exe := by
  have hf := rHist_home (dirname := dirname) hh before (installed_home home env)
  obtain ⟨h1, h2⟩ := rStep_good hh hf he
  have hne : exe ≠ [] := by
    cases e with
    | build => obtain ⟨_, _, _, _, _, _, _, rfl⟩ := he; simp
    | _ => exact he.elim
  rw [List.foldl_append, List.foldl_cons]
  unfold rExe
  simp only [readRenviron, getenv, rHist_bad hh after h2 hlast, h1, Option.getD_some, if_neg hne]

/-- **C148, R, failed builds.** A build raises an error exactly if the build fails, and then the next
run calls the executable that it would have called before. -/
theorem c148_r_failed_build (dirname : Str → Str) {home : Str} (hh : home ≠ []) (env : Vars)
    (evs : List REvent) (nproc : Option ℚ) (subdir : Option Str) (dirOk : Bool) (configure build : ℤ) :
    let s := evs.foldl (rStep dirname) (rInstalled home env)
    let r := rBuild dirname nproc subdir dirOk configure build s
    (r.1 = .ok () ↔ ∃ exe, RGood dirname home exe (.build nproc subdir dirOk configure build)) ∧
      (r.1 ≠ .ok () → r.1 = .error .throw ∧ rExe r.2 = rExe s) := by
  have hf := rHist_home (dirname := dirname) hh evs (installed_home home env)
  dsimp only
  rcases rBuild_cases dirname hh hf nproc subdir dirOk configure build with
    ⟨exe', tbb, hg, e⟩ | ⟨hb, t, e, ht⟩
  · rw [e]
    exact ⟨⟨fun _ => ⟨exe', hg⟩, fun _ => rfl⟩, fun h => absurd rfl h⟩
  · rw [e]
    refine ⟨⟨fun h => by simp at h, fun ⟨exe, h⟩ => absurd h (hb exe)⟩, fun _ => ⟨rfl, ?_⟩⟩
    rcases ht with rfl | rfl
    · rfl
    · exact rExe_read _

/-- **C148, R, no build.** As long as no build succeeded and the variable is not set from outside,
`run_mcmc` raises an error. -/
theorem c148_r_no_build (dirname : Str → Str) {home : Str} (hh : home ≠ []) (env : Vars)
    (henv : env exeKey = none) (evs : List REvent)
    (hre : ∀ e ∈ evs, ∀ env', e = .restart env' → env' exeKey = none)
    (hbad : ∀ e ∈ evs, ∀ exe, ¬ RGood dirname home exe e) :
    rExe (evs.foldl (rStep dirname) (rInstalled home env)) = .error .throw := by
  have key : ∀ (evs : List REvent) (s : Session), fileValue s.file homeKey = some home →
      fileValue s.file exeKey = none → s.env exeKey = none →
      (∀ e ∈ evs, ∀ env', e = .restart env' → env' exeKey = none) →
      (∀ e ∈ evs, ∀ exe, ¬ RGood dirname home exe e) →
      (evs.foldl (rStep dirname) s).env exeKey = none := by
    intro evs
    induction evs with
    | nil => exact fun _ _ _ h _ _ => h
    | cons e evs ih =>
      intro s h1 h2 h3 hre hbad
      have hb := rStep_bad hh h1 (hbad e List.mem_cons_self)
      refine ih _ (by rw [hb]; exact h1) (by rw [hb]; exact h2) ?_
        (fun e' he' => hre e' (List.mem_cons_of_mem _ he'))
        (fun e' he' => hbad e' (List.mem_cons_of_mem _ he'))
      cases e with
      | build nproc subdir dirOk configure build =>
        rcases rBuild_cases dirname hh h1 nproc subdir dirOk configure build with
          ⟨exe', tbb, hg, -⟩ | ⟨-, t, e, rfl | rfl⟩
        · exact absurd hg (hbad _ List.mem_cons_self exe')
        · rw [rStep, e]
          exact h3
        · rw [rStep, e]
          simp only [readRenviron, h2, h3]
      | run => simp only [rStep, readRenviron, h2, h3]
      | restart env' =>
        simp only [rStep, readRenviron, h2]
        exact hre _ List.mem_cons_self env' rfl
      | detach => simp [rStep]
  have hf : fileValue (rInstalled home env).file exeKey = none := by
    rw [rInstalled, fileValue_cons, if_neg keys_ne.2.2.2]
    rfl
  have h := key evs (rInstalled home env) (installed_home home env) hf henv hre hbad
  unfold rExe
  simp only [readRenviron, getenv, rHist_bad hh evs (installed_home home env) hbad, hf, h,
    Option.getD_none, if_true]

/-! ### Python -/

/-- The executable of a build in which both programs could be started, however they ended. -/
def PyStarted (home : Str) (exe : Str) : PyEvent → Prop
  | .build dir dirOk cmake make _ => dirOk = true ∧ (∃ c, cmake = .exits c) ∧ (∃ c, make = .exits c) ∧
      exe = joinPath home dir ++ "/run_mcmc".toList
  | _ => False

theorem pyBuild_file (home dir : Str) (dirOk : Bool) (cmake make conv : Tool) (s : Session) :
    (pyBuild home dir dirOk cmake make conv s).2.env = s.env ∧
    ((∃ exe, PyStarted home exe (.build dir dirOk cmake make conv) ∧
      fileValue (pyBuild home dir dirOk cmake make conv s).2.file exeKey = some exe) ∨
    (∀ exe, ¬ PyStarted home exe (.build dir dirOk cmake make conv)) ∧
      pyBuild home dir dirOk cmake make conv s = (.error .throw, s)) := by
  unfold pyBuild
  by_cases h : dirOk = false
  · rw [if_pos h]
    exact ⟨rfl, Or.inr ⟨fun exe he => by simp [h, PyStarted] at he, rfl⟩⟩
  rw [if_neg h]
  cases cmake with
  | missing => exact ⟨rfl, Or.inr ⟨fun exe ⟨_, ⟨c, hc⟩, _⟩ => by simp at hc, rfl⟩⟩
  | exits c1 =>
    cases make with
    | missing => exact ⟨rfl, Or.inr ⟨fun exe ⟨_, _, ⟨c, hc⟩, _⟩ => by simp at hc, rfl⟩⟩
    | exits c2 =>
      simp only [runShell]
      refine ⟨?_, Or.inl ⟨_, ⟨by simpa using h, ⟨c1, rfl⟩, ⟨c2, rfl⟩, rfl⟩, ?_⟩⟩
      · cases conv with
        | missing => rfl
        | exits c => by_cases hc : c = 0 <;> simp [hc]
      · cases conv with
        | missing => exact fileValue_setKey _ _ _
        | exits c => by_cases hc : c = 0 <;> simp [hc, fileValue_setKey, exeIn]

theorem pyHist_file (home : Str) (evs : List PyEvent) (s : Session)
    (h : ∀ e ∈ evs, ∀ exe, ¬ PyStarted home exe e) : (evs.foldl (pyStep home) s).file = s.file := by
  induction evs generalizing s with
  | nil => rfl
  | cons e evs ih =>
    rw [List.foldl_cons, ih _ fun e' he' => h e' (List.mem_cons_of_mem _ he')]
    cases e with
    | build dir dirOk cmake make conv =>
      rcases (pyBuild_file home dir dirOk cmake make conv s).2 with ⟨exe, he, -⟩ | ⟨-, e⟩
      · exact absurd he (h _ List.mem_cons_self exe)
      · rw [pyStep, e]
    | run => rfl
    | restart env => rfl

/-- **C148, Python, what holds.** In a new process whose variables do not name an executable,
`run_mcmc` calls that of the last build in which `cmake` and `make` could be started. Missing: builds
that fail are not told from builds that succeed, and a running process need not notice a build. -/
theorem c148_python_new_process_partial (home : Str) (s : Session) (before after : List PyEvent)
    (e : PyEvent) (exe : Str) (he : PyStarted home exe e)
    (hlast : ∀ e' ∈ after, ∀ exe', ¬ PyStarted home exe' e') (env : Vars) (henv : env exeKey = none) :
    pyExe ((before ++ e :: after ++ [PyEvent.restart env]).foldl (pyStep home) s) = .ok exe := by
  rw [List.foldl_append, List.foldl_append, List.foldl_cons]
  simp only [List.foldl_cons, List.foldl_nil, pyStep, pyExe, loadDotenv, henv]
  rw [pyHist_file home after _ hlast]
  cases e with
  | build dir dirOk cmake make conv =>
    rcases (pyBuild_file home dir dirOk cmake make conv (before.foldl (pyStep home) s)).2 with
      ⟨exe', he', h⟩ | ⟨h, -⟩
    · simp only [pyStep, h]
      rw [he.2.2.2, he'.2.2.2]
    · exact absurd he (h exe)
  | run => exact he.elim
  | restart env => exact he.elim

/-- **C148, Python, violation.** A build in which `cmake` and `make` fail reports success, and new
processes call its executable, whatever was built before. -/
theorem c148_python_failed_build_violated (home dir : Str) (s : Session) (c m : ℤ) (_ : c ≠ 0)
    (_ : m ≠ 0) (env : Vars) (henv : env exeKey = none) :
    let r := pyBuild home dir true (.exits c) (.exits m) (.exits 0) s
    r.1 = .ok true ∧
      pyExe { r.2 with env := env } = .ok (joinPath home dir ++ "/run_mcmc".toList) := by
  refine ⟨by simp [pyBuild, runShell], ?_⟩
  have := c148_python_new_process_partial home s [] [] (.build dir true (.exits c) (.exits m) (.exits 0))
    _ ⟨rfl, ⟨c, rfl⟩, ⟨m, rfl⟩, rfl⟩ (by simp) env henv
  exact this

/-- **C148, Python, violation.** After a run, builds in the same process make no difference to the
executable that `run_mcmc` calls, however they end. -/
theorem c148_python_same_process_violated (home : Str) (s : Session) (exe : Str) (hs : pyExe s = .ok exe)
    (evs : List PyEvent) (hev : ∀ e ∈ evs, ∀ env, e ≠ .restart env) :
    pyExe ((PyEvent.run :: evs).foldl (pyStep home) s) = .ok exe := by
  have key : ∀ (evs : List PyEvent) (s : Session), s.env exeKey = some exe →
      (∀ e ∈ evs, ∀ env, e ≠ .restart env) → (evs.foldl (pyStep home) s).env exeKey = some exe := by
    intro evs
    induction evs with
    | nil => exact fun _ h _ => h
    | cons e evs ih =>
      intro s h hev
      refine ih _ ?_ fun e' he' => hev e' (List.mem_cons_of_mem _ he')
      cases e with
      | build dir dirOk cmake make conv =>
        rw [pyStep, (pyBuild_file home dir dirOk cmake make conv s).1]
        exact h
      | run => simp only [pyStep, loadDotenv, h]
      | restart env => exact absurd rfl (hev _ List.mem_cons_self env)
  have h0 : (loadDotenv s).env exeKey = some exe := by
    unfold pyExe at hs
    cases h : (loadDotenv s).env exeKey with
    | none => rw [h] at hs; simp at hs
    | some v => rw [h] at hs; rw [Except.ok.inj hs]
  have := key evs (loadDotenv s) h0 hev
  rw [List.foldl_cons]
  simp only [pyStep]
  unfold pyExe
  generalize evs.foldl (pyStep home) (loadDotenv s) = t at this ⊢
  simp only [loadDotenv, this]

/-! ### Examples -/

/-- A build into `build`, a run, a build into `dev` that fails in `make`, a new process. -/
example (env env' : Vars) :
    let dirname : Str → Str := fun s => s.take 5
    let evs := [REvent.build (some 4) (some "build".toList) true 0 0, .run,
      .build (some 4) (some "dev".toList) true 0 2, .restart env']
    rExe (evs.foldl (rStep dirname) (rInstalled "/root/R/bayesmixr".toList env)) =
      .ok "/root/build/run_mcmc".toList := by
  refine c148_r_runs _ (home := "/root/R/bayesmixr".toList) (by simp) env [] [.run, .build (some 4) (some "dev".toList) true 0 2, .restart env']
    (.build (some 4) (some "build".toList) true 0 0) _ ⟨4, "build".toList, rfl, rfl, rfl, rfl, rfl, rfl⟩ ?_
  intro e' he' exe'
  simp only [List.mem_cons, List.not_mem_nil, or_false] at he'
  rcases he' with rfl | rfl | rfl
  · exact fun h => h
  · rintro ⟨k, sub, -, -, -, -, h, -⟩
    norm_num at h
  · exact fun h => h

example (env : Vars) :
    (rBuild (fun s => s.take 5) (some (5 / 2)) (some "build".toList) true 0 0
      (rInstalled "/root/R/bayesmixr".toList env)).1 = .error .throw :=
  ((c148_r_failed_build (fun s => s.take 5) (home := "/root/R/bayesmixr".toList) (by simp) env []
    (some (5 / 2)) (some "build".toList) true 0 0).2
    (fun h => by
      obtain ⟨exe, k, sub, hk, -⟩ := (c148_r_failed_build (fun s => s.take 5)
        (home := "/root/R/bayesmixr".toList) (by simp) env [] (some (5 / 2)) (some "build".toList) true 0
        0).1.mp h
      have h1 := congrArg Rat.den (Option.some.inj hk)
      have h2 : ((k : ℚ)).den = 1 := rfl
      rw [h2] at h1
      exact absurd h1 (by decide +kernel))).1

example : rExe ([REvent.build (some 4) (some "build".toList) true 1 0, .run].foldl
    (rStep fun s => s.take 5) (rInstalled "/root/R/bayesmixr".toList fun _ => none)) = .error .throw := by
  refine c148_r_no_build _ (by simp) _ rfl _ (by simp) ?_
  intro e' he' exe'
  simp only [List.mem_cons, List.not_mem_nil, or_false] at he'
  rcases he' with rfl | rfl
  · rintro ⟨k, sub, -, -, -, h, -⟩
    norm_num at h
  · exact fun h => h

/-- A build that works, then one that fails. -/
example : pyExe ([PyEvent.build "build".toList true (.exits 0) (.exits 0) (.exits 0), .run,
    .build "dev".toList true (.exits 1) (.exits 2) (.exits 0), .restart fun _ => none].foldl
    (pyStep "/root".toList) ⟨fun _ => none, []⟩) = .ok "/root/dev/run_mcmc".toList :=
  c148_python_new_process_partial "/root".toList ⟨fun _ => none, []⟩
    [PyEvent.build "build".toList true (.exits 0) (.exits 0) (.exits 0), .run] []
    (.build "dev".toList true (.exits 1) (.exits 2) (.exits 0)) _
    ⟨rfl, ⟨1, rfl⟩, ⟨2, rfl⟩, rfl⟩ (by simp) (fun _ => none) rfl

example := c148_python_failed_build_violated "/root".toList "dev".toList
  ⟨fun _ => none, [(exeKey, "/root/build/run_mcmc".toList)]⟩ 1 2 (by norm_num) (by norm_num)
  (fun _ => none) rfl

/-- A build that works, a run, and a build elsewhere that works as well. -/
example : pyExe ([PyEvent.run, .build "dev".toList true (.exits 0) (.exits 0) (.exits 0)].foldl
    (pyStep "/root".toList) ⟨fun _ => none, [(exeKey, "/root/build/run_mcmc".toList)]⟩) =
    .ok "/root/build/run_mcmc".toList :=
  c148_python_same_process_violated _ _ _ (by simp [pyExe, loadDotenv, fileValue])
    [.build "dev".toList true (.exits 0) (.exits 0) (.exits 0)] (by simp)

end Bayesmix.Program
