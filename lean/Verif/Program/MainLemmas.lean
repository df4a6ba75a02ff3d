import Verif.Program.Main
import Verif.Program.ArgLemmas

/-!
# Inversion of the program `run_mcmc`
-/

namespace Bayesmix.Program
open Utils

variable {β γ Msg St α : Type}

theorem FS.put_same (fs : FS) (n : Str) (c : List Char) : fs.put n c n = some c := by
  simp [FS.put]

theorem FS.put_other {fs : FS} {n q : Str} {c : List Char} (h : q ≠ n) : fs.put n c q = fs q := by
  simp [FS.put, h]

theorem bind_ok {x : Prog β} {f : β → Prog γ} {fs fs' : FS} {c : γ}
    (h : (x >>= f) fs = (.ok c, fs')) : ∃ b fs1, x fs = (.ok b, fs1) ∧ f b fs1 = (.ok c, fs') := by
  change Prog.bind x f fs = _ at h
  unfold Prog.bind at h
  split at h
  · exact ⟨_, _, ‹_›, h⟩
  · simp at h

theorem bind_of {x : Prog β} {f : β → Prog γ} {fs fs1 : FS} {b : β} (h : x fs = (.ok b, fs1)) :
    (x >>= f) fs = f b fs1 := by
  change Prog.bind x f fs = _
  unfold Prog.bind
  rw [h]

theorem bind_err {x : Prog β} {f : β → Prog γ} {fs fs1 : FS} {e : Fault} (h : x fs = (.error e, fs1)) :
    (x >>= f) fs = (.error e, fs1) := by
  change Prog.bind x f fs = _
  unfold Prog.bind
  rw [h]

theorem pure_prog (b : β) (fs : FS) : (pure b : Prog β) fs = (.ok b, fs) := rfl

theorem liftE_ok {x : Except Fault β} {fs fs' : FS} {b : β} (h : liftE x fs = (.ok b, fs')) :
    x = .ok b ∧ fs' = fs := by
  unfold liftE at h
  exact ⟨congrArg Prod.fst h, (congrArg Prod.snd h).symm⟩

/-! ### Files that are left alone -/

/-- Files with the property are left alone, however the computation ends. -/
def Keeps (P : Str → Prop) (x : Prog β) : Prop := ∀ fs q, P q → (x fs).2 q = fs q

variable {P : Str → Prop}

theorem Keeps.bind {x : Prog β} {f : β → Prog γ} (hx : Keeps P x) (hf : ∀ b, Keeps P (f b)) :
    Keeps P (x >>= f) := by
  intro fs q hq
  have h1 := hx fs q hq
  change (Prog.bind x f fs).2 q = _
  unfold Prog.bind
  rcases hfs : x fs with ⟨r, fs1⟩
  rw [hfs] at h1
  cases r with
  | ok b => exact (hf b fs1 q hq).trans h1
  | error e => exact h1

theorem Keeps.pure (b : β) : Keeps P (pure b : Prog β) := fun _ _ _ => rfl

theorem Keeps.lift (x : Except Fault β) : Keeps P (liftE x) := fun _ _ _ => rfl

theorem Keeps.whenP {c : Prop} [Decidable c] {x : Prog Unit} (hx : c → Keeps P x) : Keeps P (whenP c x) := by
  unfold Program.whenP
  by_cases h : c
  · rw [if_pos h]; exact hx h
  · rw [if_neg h]; exact Keeps.pure _

theorem Keeps.ite {c : Prop} [Decidable c] {x y : Prog β} (hx : c → Keeps P x) (hy : ¬ c → Keeps P y) :
    Keeps P (if c then x else y) := by
  by_cases h : c
  · rw [if_pos h]; exact hx h
  · rw [if_neg h]; exact hy h

variable (W : Lib Msg St α) (writable : Str → Bool) (A : List Argument)

theorem Keeps.write {n : Str} (hn : ∀ q, P q → q ≠ n) (c : List Char) : Keeps P (writeFile writable n c) := by
  intro fs q hq
  unfold writeFile
  dsimp only
  split
  · exact FS.put_other (hn q hq)
  · rfl

theorem Keeps.get {f : Str → Prog β} (opt : Str) (h : ∀ v, getArg A opt = .ok v → Keeps P (f v)) :
    Keeps P (liftE (getArg A opt) >>= f) := by
  intro fs q hq
  cases hv : getArg A opt with
  | error e => rfl
  | ok v =>
    rw [bind_of (show liftE (.ok v) fs = (.ok v, fs) from rfl)]
    exact h v hv fs q hq

theorem Keeps.checkArg {opt none : Str}
    (h : ∀ v, getArg A opt = .ok v → v ≠ none → ∀ q, P q → q ≠ v) :
    Keeps P (checkArg writable A opt none) := by
  unfold Program.checkArg
  refine Keeps.get A opt fun v hv => Keeps.whenP fun hn => ?_
  intro fs q hq
  unfold checkWriteable
  split
  · exact FS.put_other (h v hv hn q hq)
  · rfl

theorem Keeps.readProto (opt : Str) : Keeps P (readProto W A opt) :=
  Keeps.bind (Keeps.lift _) fun _ _ _ _ => rfl

theorem Keeps.readMat (n : Str) : Keeps P (readMat W n) := by
  intro fs q _
  unfold Program.readMat
  cases fs n <;> rfl

theorem Keeps.readOpt (opt : Str) : Keeps P (readOpt W A opt) :=
  Keeps.bind (Keeps.lift _) fun _ => Keeps.readMat W _

theorem Keeps.readCov (dep : Bool) (opt : Str) : Keeps P (readCov W A dep opt) := by
  unfold Program.readCov
  exact Keeps.ite (fun _ => Keeps.bind (Keeps.readOpt W A opt) fun _ => Keeps.pure _) fun _ => Keeps.pure _

/-- The options that name outputs, with the value for no output. -/
def outputOpts : List (Str × Str) :=
  [("--coll-name".toList, "memory".toList), ("--dens-file".toList, emptyStr), ("--n-cl-file".toList, emptyStr),
   ("--clus-file".toList, emptyStr), ("--best-clus-file".toList, emptyStr)]

/-- A file that no option names as output. -/
def NotOutput (q : Str) : Prop := ∀ p ∈ outputOpts, ∀ v, getArg A p.1 = .ok v → v ≠ p.2 → q ≠ v

theorem NotOutput.ne {A : List Argument} {opt none v : Str} (hm : (opt, none) ∈ outputOpts)
    (hv : getArg A opt = .ok v) (hn : v ≠ none) : ∀ q, NotOutput A q → q ≠ v :=
  fun _ hq => hq _ hm v hv hn

theorem keeps_mainBody : Keeps (NotOutput A) (mainBody W writable A) := by
  have hchk : Keeps (NotOutput A) (checkArgs writable A) := by
    unfold checkArgs
    refine Keeps.bind (Keeps.checkArg _ _ fun v hv hn => NotOutput.ne (by simp [outputOpts]) hv hn) fun _ => ?_
    refine Keeps.bind (Keeps.checkArg _ _ fun v hv hn => NotOutput.ne (by simp [outputOpts]) hv hn) fun _ => ?_
    refine Keeps.bind (Keeps.checkArg _ _ fun v hv hn => NotOutput.ne (by simp [outputOpts]) hv hn) fun _ => ?_
    refine Keeps.bind (Keeps.checkArg _ _ fun v hv hn => NotOutput.ne (by simp [outputOpts]) hv hn) fun _ => ?_
    exact Keeps.checkArg _ _ fun v hv hn => NotOutput.ne (by simp [outputOpts]) hv hn
  unfold mainBody
  refine hchk.bind fun _ => (Keeps.readProto W A _).bind fun algo => (Keeps.lift _).bind fun _ => ?_
  refine (Keeps.lift _).bind fun ht => (Keeps.lift _).bind fun _ => (Keeps.lift _).bind fun mt => ?_
  refine (Keeps.lift _).bind fun _ => Keeps.get A _ fun coll hcoll => ?_
  refine (Keeps.readProto W A _).bind fun mix => (Keeps.readProto W A _).bind fun hier => ?_
  refine (Keeps.lift _).bind fun _ => (Keeps.readOpt W A _).bind fun data => ?_
  refine (Keeps.readCov W A _ _).bind fun hc => (Keeps.readCov W A _ _).bind fun mc => ?_
  refine Keeps.bind ?_ fun states => Keeps.bind ?_ fun _ => ?_
  · unfold runInto
    refine Keeps.bind (Keeps.whenP fun hn => ?_) fun _ => Keeps.lift _
    exact Keeps.write _ (NotOutput.ne (by simp [outputOpts]) hcoll hn) _
  · unfold densBlock
    refine Keeps.get A _ fun grid _ => Keeps.get A _ fun dens hd => Keeps.whenP fun hn => ?_
    refine (Keeps.readMat W _).bind fun g => (Keeps.readCov W A _ _).bind fun _ => ?_
    refine (Keeps.readCov W A _ _).bind fun _ => (Keeps.lift _).bind fun d => ?_
    exact Keeps.write _ (NotOutput.ne (by simp [outputOpts]) hd hn.2) _
  · unfold clusBlock
    refine Keeps.get A _ fun ncl h1 => Keeps.get A _ fun clus h2 => Keeps.get A _ fun best h3 => ?_
    refine Keeps.whenP fun _ => ?_
    refine (Keeps.lift _).bind fun al => ?_
    refine Keeps.bind (Keeps.whenP fun hn => ?_) fun _ => ?_
    · exact Keeps.write _ (NotOutput.ne (by simp [outputOpts]) h1 hn) _
    refine Keeps.bind (Keeps.whenP fun hn => ?_) fun _ => ?_
    · exact Keeps.write _ (NotOutput.ne (by simp [outputOpts]) h2 hn) _
    refine Keeps.whenP fun hn => ?_
    refine (Keeps.lift _).bind fun b => ?_
    exact Keeps.write _ (NotOutput.ne (by simp [outputOpts]) h3 hn) _

/-! ### What happened in a run that ended well -/

variable {W writable A}

theorem whenP_pos {c : Prop} [Decidable c] (h : c) (x : Prog Unit) : whenP c x = x := if_pos h

theorem whenP_neg {c : Prop} [Decidable c] (h : ¬ c) (x : Prog Unit) : whenP c x = pure () := if_neg h

theorem checkArg_ok {opt none v : Str} {fs fs' : FS} (hv : getArg A opt = .ok v)
    (h : checkArg writable A opt none fs = (.ok (), fs')) :
    (v ≠ none → writable v = true) ∧ fs' = if v = none then fs else fs.put v [] := by
  unfold checkArg at h
  rw [hv, bind_of (show liftE (.ok v) fs = (.ok v, fs) from rfl)] at h
  by_cases hn : v = none
  · rw [whenP_neg (not_not.mpr hn)] at h
    rw [if_pos hn]
    exact ⟨fun h => absurd hn h, (congrArg Prod.snd h).symm⟩
  · rw [whenP_pos hn] at h
    rw [if_neg hn]
    unfold checkWriteable at h
    by_cases hw : writable v = true
    · rw [if_pos hw] at h
      exact ⟨fun _ => hw, (congrArg Prod.snd h).symm⟩
    · rw [if_neg hw] at h
      simp at h

theorem readProto_ok {opt v : Str} {fs fs' : FS} {m : Msg} (hv : getArg A opt = .ok v)
    (h : readProto W A opt fs = (.ok m, fs')) : m = (W.parse (fs v)).1 ∧ fs' = fs := by
  unfold readProto at h
  rw [hv, bind_of (show liftE (.ok v) fs = (.ok v, fs) from rfl)] at h
  exact ⟨(Except.ok.inj (congrArg Prod.fst h)).symm, (congrArg Prod.snd h).symm⟩

/-- The matrix in a file. -/
def HasMat (W : Lib Msg St α) (fs : FS) (n : Str) (m : Mat α) : Prop :=
  ∃ c, fs n = some c ∧ readEigenMatrix ',' W.stof c = .ok m

theorem readMat_ok {n : Str} {fs fs' : FS} {m : Mat α} (h : readMat W n fs = (.ok m, fs')) :
    HasMat W fs n m ∧ fs' = fs := by
  unfold readMat at h
  cases hc : fs n with
  | none => rw [hc] at h; simp at h
  | some c =>
    rw [hc] at h
    exact ⟨⟨c, hc, congrArg Prod.fst h⟩, (congrArg Prod.snd h).symm⟩

theorem readOpt_ok {opt v : Str} {fs fs' : FS} {m : Mat α} (hv : getArg A opt = .ok v)
    (h : readOpt W A opt fs = (.ok m, fs')) : HasMat W fs v m ∧ fs' = fs := by
  unfold readOpt at h
  rw [hv, bind_of (show liftE (.ok v) fs = (.ok v, fs) from rfl)] at h
  exact readMat_ok h

/-- The covariates that are used. -/
def HasCov (W : Lib Msg St α) (fs : FS) (dep : Bool) (n : Str) (m : Option (Mat α)) : Prop :=
  if dep then ∃ x, m = some x ∧ HasMat W fs n x else m = none

theorem readCov_ok {opt v : Str} {fs fs' : FS} {dep : Bool} {m : Option (Mat α)} (hv : getArg A opt = .ok v)
    (h : readCov W A dep opt fs = (.ok m, fs')) : HasCov W fs dep v m ∧ fs' = fs := by
  unfold readCov at h
  unfold HasCov
  by_cases hd : dep = true
  · rw [if_pos hd] at h ⊢
    obtain ⟨x, fs1, h1, h2⟩ := bind_ok h
    obtain ⟨h3, rfl⟩ := readOpt_ok hv h1
    have h4 := Except.ok.inj (congrArg Prod.fst h2)
    exact ⟨⟨x, h4.symm, h3⟩, (congrArg Prod.snd h2).symm⟩
  · rw [if_neg hd] at h ⊢
    have h4 := Except.ok.inj (congrArg Prod.fst h)
    exact ⟨h4.symm, (congrArg Prod.snd h).symm⟩

/-- The file system after writing a file that can be written, if it was asked for. -/
def putIf (b : Bool) (fs : FS) (n : Str) (c : List Char) : FS := if b then fs.put n c else fs

theorem writeFile_ok {n : Str} {c : List Char} {fs fs' : FS} (hw : writable n = true)
    (h : writeFile writable n c fs = (.ok (), fs')) : fs' = fs.put n c := by
  unfold writeFile at h
  rw [if_pos hw] at h
  exact (congrArg Prod.snd h).symm

theorem runInto_ok {coll : Str} {r : List St × Option Fault} {fs fs' : FS} {s : List St}
    (hw : coll ≠ "memory".toList → writable coll = true)
    (h : runInto W writable coll r fs = (.ok s, fs')) :
    r = (s, none) ∧ fs' = putIf (decide (coll ≠ "memory".toList)) fs coll (W.chain s) := by
  unfold runInto at h
  obtain ⟨u, fs1, h1, h2⟩ := bind_ok h
  obtain ⟨h3, rfl⟩ := liftE_ok h2
  have h3 : r = (s, none) := by
    cases hr : r.2 with
    | some e => rw [hr] at h3; cases h3
    | none =>
      rw [hr] at h3
      exact Prod.ext (Except.ok.inj h3) hr
  refine ⟨h3, ?_⟩
  unfold putIf
  by_cases hc : coll ≠ "memory".toList
  · rw [whenP_pos hc] at h1
    rw [writeFile_ok (hw hc) h1, congrArg Prod.fst h3]
    simp only [hc, ne_eq, not_false_eq_true, decide_true, if_true]
  · rw [whenP_neg hc] at h1
    simp only [hc, decide_false, Bool.false_eq_true, if_false]
    exact (congrArg Prod.snd h1).symm

theorem densBlock_ok {algo hier mix : Msg} {ht mt : Str} {states : List St} {fs fs' : FS}
    {grid dens hgc mgc : Str}
    (hg : getArg A "--grid-file".toList = .ok grid) (hd : getArg A "--dens-file".toList = .ok dens)
    (h1 : getArg A "--hier-grid-cov-file".toList = .ok hgc) (h2 : getArg A "--mix-grid-cov-file".toList = .ok mgc)
    (hw : dens ≠ emptyStr → writable dens = true)
    (h : densBlock W writable A algo ht hier mt mix states fs = (.ok (), fs')) :
    if grid ≠ emptyStr ∧ dens ≠ emptyStr then
      ∃ g hc mc d, HasMat W fs grid g ∧ HasCov W fs (W.hierDep ht) hgc hc ∧ HasCov W fs (W.mixDep mt) mgc mc ∧
        W.dens algo ht hier mt mix states g hc mc = .ok d ∧
        fs' = fs.put dens (writeMatrixToFile ',' W.fmt d)
    else fs' = fs := by
  unfold densBlock at h
  rw [hg, bind_of (show liftE (.ok grid) fs = (.ok grid, fs) from rfl), hd,
    bind_of (show liftE (.ok dens) fs = (.ok dens, fs) from rfl)] at h
  by_cases hn : grid ≠ emptyStr ∧ dens ≠ emptyStr
  · rw [whenP_pos hn] at h
    rw [if_pos hn]
    obtain ⟨g, f1, e1, h'⟩ := bind_ok h; clear h; rename' h' => h
    obtain ⟨m1, rfl⟩ := readMat_ok e1
    obtain ⟨hc, f2, e2, h'⟩ := bind_ok h; clear h; rename' h' => h
    obtain ⟨m2, rfl⟩ := readCov_ok h1 e2
    obtain ⟨mc, f3, e3, h'⟩ := bind_ok h; clear h; rename' h' => h
    obtain ⟨m3, rfl⟩ := readCov_ok h2 e3
    obtain ⟨d, f4, e4, h'⟩ := bind_ok h; clear h; rename' h' => h
    obtain ⟨m4, rfl⟩ := liftE_ok e4
    exact ⟨g, hc, mc, d, m1, m2, m3, m4, writeFile_ok (hw hn.2) h⟩
  · rw [whenP_neg hn] at h
    rw [if_neg hn]
    exact (congrArg Prod.snd h).symm

theorem putIf_ok {b : Prop} [Decidable b] {n : Str} {c : List Char} {fs fs' : FS} (hw : b → writable n = true)
    (h : whenP b (writeFile writable n c) fs = (.ok (), fs')) :
    fs' = putIf (decide b) fs n c := by
  unfold putIf
  by_cases hb : b
  · rw [whenP_pos hb] at h
    simp only [hb, decide_true, if_true]
    exact writeFile_ok (hw hb) h
  · rw [whenP_neg hb] at h
    simp only [hb, decide_false, Bool.false_eq_true, if_false]
    exact (congrArg Prod.snd h).symm

theorem clusBlock_ok {rows : ℕ} {states : List St} {fs fs' : FS} {ncl clus best : Str}
    (h1 : getArg A "--n-cl-file".toList = .ok ncl) (h2 : getArg A "--clus-file".toList = .ok clus)
    (h3 : getArg A "--best-clus-file".toList = .ok best)
    (w1 : ncl ≠ emptyStr → writable ncl = true) (w2 : clus ≠ emptyStr → writable clus = true)
    (w3 : best ≠ emptyStr → writable best = true)
    (h : clusBlock W writable A rows states fs = (.ok (), fs')) :
    (ncl = emptyStr ∧ clus = emptyStr ∧ best = emptyStr ∧ fs' = fs) ∨
    ∃ al, states.mapM (allocRow W rows) = .ok al ∧ ∃ b, (best ≠ emptyStr → W.best al = .ok b) ∧
      fs' = putIf (decide (best ≠ emptyStr)) (putIf (decide (clus ≠ emptyStr)) (putIf (decide (ncl ≠ emptyStr)) fs
        ncl (natText W 1 (states.map fun s => [W.nClus s]))) clus (natText W rows al)) best
        (natText W 1 (b.map fun x => [x])) := by
  unfold clusBlock at h
  rw [h1, bind_of (show liftE (.ok ncl) fs = (.ok ncl, fs) from rfl), h2,
    bind_of (show liftE (.ok clus) fs = (.ok clus, fs) from rfl), h3,
    bind_of (show liftE (.ok best) fs = (.ok best, fs) from rfl)] at h
  by_cases hn : ncl ≠ emptyStr ∨ clus ≠ emptyStr ∨ best ≠ emptyStr
  · rw [whenP_pos hn] at h
    right
    obtain ⟨al, f1, e1, h'⟩ := bind_ok h; clear h; rename' h' => h
    obtain ⟨m1, rfl⟩ := liftE_ok e1
    obtain ⟨u, f2, e2, h'⟩ := bind_ok h; clear h; rename' h' => h
    have m2 := putIf_ok w1 e2
    obtain ⟨u', f3, e3, h'⟩ := bind_ok h; clear h; rename' h' => h
    have m3 := putIf_ok w2 e3
    refine ⟨al, m1, ?_⟩
    by_cases hb : best ≠ emptyStr
    · rw [whenP_pos hb] at h
      obtain ⟨b, f4, e4, h'⟩ := bind_ok h; clear h; rename' h' => h
      obtain ⟨m4, rfl⟩ := liftE_ok e4
      refine ⟨b, fun _ => m4, ?_⟩
      have := writeFile_ok (w3 hb) h
      rw [this, m3, m2]
      simp [putIf, hb]
    · rw [whenP_neg hb] at h
      refine ⟨[], fun h => absurd h hb, ?_⟩
      have : fs' = f3 := (congrArg Prod.snd h).symm
      rw [this, m3, m2]
      simp [putIf, hb]
  · rw [whenP_neg hn] at h
    left
    push Not at hn
    exact ⟨hn.1, hn.2.1, hn.2.2, (congrArg Prod.snd h).symm⟩

end Bayesmix.Program
