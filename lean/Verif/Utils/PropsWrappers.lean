import Verif.Utils.Wrappers
import Verif.FaultLemmas
import Mathlib.Data.Int.Log
import Mathlib.Algebra.Order.Round
import Mathlib.Data.Real.Archimedean
import Mathlib.Tactic.Linarith
import Mathlib.Tactic.Ring
import Mathlib.Tactic.FieldSimp
import Mathlib.Tactic.NormNum
import Mathlib.Tactic.Positivity

/-!
# C105 - C108: the Python and R wrappers

* **C105** The sampler runs on the numbers that it is given.
* **C106** If the program fails, the wrapper reports an error instead of returning results.
* **C107** A run changes no files of a given output directory except its own inputs and the
  outputs asked for.
* **C108** The arrays returned by the Python wrapper have the documented shapes.
-/

namespace Bayesmix.Wrappers

/-! ### C105 -/

theorem prints5_near {fmt : ℝ → ℝ} (h : Prints5 fmt) (x : ℝ) : |fmt x - x| ≤ 5 / 1000000 := by
  refine ((h x).2 (round (x * 100000))).trans ?_
  have h1 := abs_sub_round (x * 100000)
  have e : ((round (x * 100000) : ℤ) : ℝ) / 100000 - x =
      -(x * 100000 - (round (x * 100000) : ℤ)) / 100000 := by ring
  rw [e, abs_div, abs_neg, abs_of_pos (by norm_num : (0 : ℝ) < 100000)]
  rw [div_le_iff₀ (by norm_num)]
  linarith

theorem prints5_exact {fmt : ℝ → ℝ} (h : Prints5 fmt) (k : ℤ) :
    fmt ((k : ℝ) / 100000) = (k : ℝ) / 100000 := by
  have := (h ((k : ℝ) / 100000)).2 k
  rw [sub_self, abs_zero] at this
  have h0 := abs_nonpos_iff.mp this
  linarith

theorem prints5_zero {fmt : ℝ → ℝ} (h : Prints5 fmt) {x : ℝ} (hx : |x| < 5 / 1000000) :
    fmt x = 0 := by
  obtain ⟨k, hk⟩ := (h x).1
  have h1 := prints5_near h x
  have h2 : |fmt x| < 1 / 100000 := by
    have := abs_add_le (fmt x - x) x
    rw [sub_add_cancel] at this
    linarith
  rw [hk, abs_div, abs_of_pos (by norm_num : (0 : ℝ) < 100000), div_lt_div_iff_of_pos_right
    (by norm_num)] at h2
  have h3 : |k| < 1 := by exact_mod_cast h2
  have h4 : k = 0 := abs_eq_zero.mp (by have := abs_nonneg k; omega)
  rw [hk, h4]
  norm_num

/-- Between `2⁻¹²⁶` and `2¹²⁶` every number has a `float` within a relative distance of `2⁻²⁴`. -/
theorem float_near (y : ℝ) (h1 : (2 : ℝ) ^ (-126 : ℤ) ≤ |y|) (h2 : |y| ≤ 2 ^ 126) :
    ∃ f, IsFloat f ∧ |f - y| ≤ |y| / 2 ^ 24 := by
  have hpos : 0 < |y| := lt_of_lt_of_le (by positivity) h1
  obtain ⟨k, hk⟩ : ∃ k, k = Int.log 2 |y| := ⟨_, rfl⟩
  have hlo : (2 : ℝ) ^ k ≤ |y| := by rw [hk]; exact_mod_cast Int.zpow_log_le_self (b := 2) (by norm_num) hpos
  have hhi : |y| < (2 : ℝ) ^ (k + 1) := by
    rw [hk]; exact_mod_cast Int.lt_zpow_succ_log_self (b := 2) (by norm_num) |y|
  have hk1 : -126 ≤ k := by
    by_contra hlt
    have : (2 : ℝ) ^ (k + 1) ≤ 2 ^ (-126 : ℤ) := zpow_le_zpow_right₀ (by norm_num) (by omega)
    linarith
  have hk2 : k ≤ 126 := by
    by_contra hlt
    have h3 : (2 : ℝ) ^ (127 : ℤ) ≤ 2 ^ k := zpow_le_zpow_right₀ (by norm_num) (by omega)
    have h4 : (2 : ℝ) ^ (127 : ℤ) = 2 ^ 126 * 2 := by norm_num
    have h5 : (0 : ℝ) < 2 ^ 126 := by positivity
    linarith
  obtain ⟨e, he⟩ : ∃ e : ℤ, e = k - 23 := ⟨_, rfl⟩
  have hep : (0 : ℝ) < (2 : ℝ) ^ e := zpow_pos (by norm_num) e
  have hke : (2 : ℝ) ^ k = 2 ^ 23 * 2 ^ e := by
    rw [show k = (23 : ℕ) + e by omega, zpow_add₀ (by norm_num), zpow_natCast]
  have hke1 : (2 : ℝ) ^ (k + 1) = 2 ^ 24 * 2 ^ e := by
    rw [show k + 1 = (24 : ℕ) + e by omega, zpow_add₀ (by norm_num), zpow_natCast]
  obtain ⟨m, hm⟩ : ∃ m : ℤ, m = round (y / 2 ^ e) := ⟨_, rfl⟩
  have hr := abs_sub_round (y / (2 : ℝ) ^ e)
  rw [← hm] at hr
  have hdiff : |(m : ℝ) * 2 ^ e - y| ≤ |y| / 2 ^ 24 := by
    have e1 : (m : ℝ) * 2 ^ e - y = -(y / 2 ^ e - m) * 2 ^ e := by field_simp; ring
    rw [e1, abs_mul, abs_neg, abs_of_pos hep, le_div_iff₀ (by positivity)]
    have : |y / (2 : ℝ) ^ e - m| * 2 ^ e * 2 ^ 24 ≤ 1 / 2 * 2 ^ e * 2 ^ 24 := by gcongr
    have e2 : (1 : ℝ) / 2 * 2 ^ e * 2 ^ 24 = 2 ^ 23 * 2 ^ e := by ring
    rw [e2, ← hke] at this
    exact this.trans hlo
  have habs : |y / (2 : ℝ) ^ e| < 2 ^ 24 := by
    rw [abs_div, abs_of_pos hep, div_lt_iff₀ hep, ← hke1]
    exact hhi
  have hmle : |m| ≤ 2 ^ 24 := by
    have h3 : |(m : ℝ)| ≤ |y / (2 : ℝ) ^ e| + 1 / 2 := by
      have := abs_sub_abs_le_abs_sub (m : ℝ) (y / (2 : ℝ) ^ e)
      rw [abs_sub_comm] at this
      linarith
    have h4 : ((|m| : ℤ) : ℝ) < ((2 ^ 24 + 1 : ℤ) : ℝ) := by
      push_cast
      linarith
    have h5 : |m| < 2 ^ 24 + 1 := by exact_mod_cast h4
    omega
  rcases lt_or_eq_of_le hmle with hlt | heq
  · exact ⟨m * 2 ^ e, ⟨m, e, hlt, by omega, by omega, rfl⟩, hdiff⟩
  · rcases abs_eq (by norm_num : (0 : ℤ) ≤ 2 ^ 24) |>.mp heq with hme | hme
    · refine ⟨m * 2 ^ e, ⟨2 ^ 23, e + 1, by norm_num, by omega, by omega, ?_⟩, hdiff⟩
      rw [hme, zpow_add₀ (by norm_num)]
      push_cast
      ring
    · refine ⟨m * 2 ^ e, ⟨-2 ^ 23, e + 1, by norm_num, by omega, by omega, ?_⟩, hdiff⟩
      rw [hme, zpow_add₀ (by norm_num)]
      push_cast
      ring

/-- What is wanted: every number passed to the Python function is the number that the sampler
works with. -/
def NumbersKept (fmt stof : ℝ → ℝ) : Prop := ∀ x, |x| ≤ 2 ^ 125 → stof (fmt x) = x

/-- **C105 (partial).** For every printing and reading of numbers as in the code, the number that
the sampler works with is within `5·10⁻⁶ + 2⁻²⁴ (|x| + 5·10⁻⁶)` of the number `x` passed to the
Python function, and whole numbers below `2²⁴` in absolute value arrive unchanged.  Missing:
equality for all numbers, see `c105_python_violated` and `c105_file_violated`. -/
theorem c105_numbers_partial {fmt stof : ℝ → ℝ} (hf : Prints5 fmt) (hs : ReadsFloat stof) :
    (∀ x, |x| ≤ 2 ^ 125 →
      |stof (fmt x) - x| ≤ 5 / 1000000 + (|x| + 5 / 1000000) / 2 ^ 24) ∧
    (∀ k : ℤ, |k| < 2 ^ 24 → stof (fmt k) = k) := by
  constructor
  · intro x hx
    have h1 := prints5_near hf x
    have h2 : |fmt x| ≤ |x| + 5 / 1000000 := by
      have := abs_sub_abs_le_abs_sub (fmt x) x
      linarith
    have hb : |fmt x| ≤ 2 ^ 126 := by
      have : (2 : ℝ) ^ 126 = 2 ^ 125 + 2 ^ 125 := by norm_num
      have h5 : (5 : ℝ) / 1000000 ≤ 2 ^ 125 := by norm_num
      linarith
    have hb' : |fmt x| ≤ 2 ^ 127 := hb.trans (by norm_num)
    have h3 : |stof (fmt x) - fmt x| ≤ |fmt x| / 2 ^ 24 := by
      obtain ⟨k, hk⟩ := (hf x).1
      by_cases hk0 : k = 0
      · have hz : fmt x = 0 := by rw [hk, hk0]; norm_num
        have := (hs (fmt x) hb').2 0 ⟨0, 0, by norm_num, by norm_num, by norm_num, by simp⟩
        rw [hz, sub_zero, sub_zero, abs_zero] at this
        rw [hz, sub_zero, abs_zero, zero_div]
        exact this
      · have hge : (2 : ℝ) ^ (-126 : ℤ) ≤ |fmt x| := by
          have h1k : (1 : ℝ) ≤ |(k : ℝ)| := by
            have : 1 ≤ |k| := Int.one_le_abs hk0
            exact_mod_cast this
          rw [hk, abs_div, abs_of_pos (by norm_num : (0 : ℝ) < 100000), le_div_iff₀ (by norm_num)]
          refine le_trans ?_ h1k
          norm_num
        obtain ⟨f, hfl, hnear⟩ := float_near (fmt x) hge hb
        exact ((hs (fmt x) hb').2 f hfl).trans hnear
    have h4 : |fmt x| / 2 ^ 24 ≤ (|x| + 5 / 1000000) / 2 ^ 24 := by gcongr
    have := abs_sub_le (stof (fmt x)) (fmt x) x
    linarith
  · intro k hk
    have e : fmt (k : ℝ) = k := by
      have := prints5_exact hf (k * 100000)
      have e' : ((k * 100000 : ℤ) : ℝ) / 100000 = k := by push_cast; field_simp
      rwa [e'] at this
    have hk' : |(k : ℝ)| ≤ 2 ^ 127 := by
      have h1 : |(k : ℝ)| < 2 ^ 24 := by exact_mod_cast hk
      exact h1.le.trans (by norm_num)
    rw [e]
    have := (hs k hk').2 k ⟨k, 0, hk, by norm_num, by norm_num, by simp⟩
    rw [sub_self, abs_zero] at this
    have h0 := abs_nonpos_iff.mp this
    linarith

/-- **C105, Python.** Every data set, multiplied by a small enough positive number, reaches the
program as a data set of zeros: a change of units turns any data into constant data. -/
theorem c105_python_violated {fmt : ℝ → ℝ} (hf : Prints5 fmt) (data : List ℝ) :
    ∃ c > 0, ∀ x ∈ data, ∀ c' > 0, c' ≤ c → fmt (c' * x) = 0 := by
  obtain ⟨B, hB0, hB⟩ : ∃ B : ℝ, 0 < B ∧ ∀ x ∈ data, |x| ≤ B := by
    induction data with
    | nil => exact ⟨1, one_pos, by simp⟩
    | cons a l ih =>
      obtain ⟨B, hB0, hB⟩ := ih
      refine ⟨max B |a|, lt_of_lt_of_le hB0 (le_max_left _ _), fun x hx => ?_⟩
      rcases List.mem_cons.mp hx with rfl | hx
      · exact le_max_right _ _
      · exact (hB x hx).trans (le_max_left _ _)
  refine ⟨1 / (1000000 * B), by positivity, fun x hx c' hc' hle => prints5_zero hf ?_⟩
  rw [abs_mul, abs_of_pos hc']
  have h1 : c' * |x| ≤ 1 / (1000000 * B) * B := by
    have := hB x hx
    gcongr
  have h2 : 1 / (1000000 * B) * B = 1 / 1000000 := by field_simp
  rw [h2] at h1
  linarith [show (1 : ℝ) / 1000000 < 5 / 1000000 by norm_num]

/-- **C105, reading.** Every odd whole number beyond `2²⁴` in a data file, whichever program wrote
the file, is read as a different number. -/
theorem c105_file_violated {stof : ℝ → ℝ} (hs : ReadsFloat stof) (k : ℤ) (hodd : k % 2 = 1)
    (h1 : 2 ^ 24 < |k|) (h2 : |k| ≤ 2 ^ 127) : stof k ≠ k := by
  intro heq
  have hk' : |(k : ℝ)| ≤ 2 ^ 127 := by exact_mod_cast h2
  obtain ⟨m, e, hm, -, -, hme⟩ := (hs k hk').1
  rw [heq] at hme
  rcases le_or_gt e 0 with he | he
  · have h3 : (m : ℝ) = k * 2 ^ (-e).toNat := by
      have : (2 : ℝ) ^ e * 2 ^ (-e).toNat = 1 := by
        rw [← zpow_natCast, ← zpow_add₀ (by norm_num)]
        have : e + ((-e).toNat : ℤ) = 0 := by omega
        rw [this, zpow_zero]
      rw [hme, mul_assoc, this, mul_one]
    have h4 : m = k * 2 ^ (-e).toNat := by exact_mod_cast h3
    have h5 : |k| ≤ |m| := by
      rw [h4, abs_mul]
      have : (1 : ℤ) ≤ |2 ^ (-e).toNat| := by
        rw [abs_of_pos (by positivity)]
        exact one_le_pow₀ (by norm_num)
      nlinarith [abs_nonneg k]
    omega
  · have h3 : (k : ℝ) = ((m * 2 ^ (e.toNat - 1) * 2 : ℤ) : ℝ) := by
      rw [hme]
      push_cast
      rw [mul_assoc, ← pow_succ, show e.toNat - 1 + 1 = e.toNat by omega, ← zpow_natCast,
        Int.toNat_of_nonneg he.le]
    have h4 : k = m * 2 ^ (e.toNat - 1) * 2 := by exact_mod_cast h3
    rw [h4, Int.mul_emod_left] at hodd
    omega

/-- Rounding to a nearest multiple of `10⁻⁵` is such a printing; 16777217 is such a number. -/
example : Prints5 (fun x => (round (x * 100000) : ℝ) / 100000) ∧
    (16777217 : ℤ) % 2 = 1 ∧ 2 ^ 24 < |(16777217 : ℤ)| := by
  refine ⟨fun x => ⟨⟨_, rfl⟩, fun k => ?_⟩, by norm_num, by norm_num⟩
  have h := round_le (x * 100000) k
  have e : ∀ m : ℤ, |(m : ℝ) / 100000 - x| = |x * 100000 - m| / 100000 := by
    intro m
    rw [← abs_of_pos (by norm_num : (0 : ℝ) < 100000), ← abs_div, ← abs_neg,
      abs_of_pos (by norm_num : (0 : ℝ) < 100000)]
    congr 1
    field_simp
    ring
  dsimp only
  rw [e, e]
  gcongr

/-- Lengths of 1.2, 1.5 and 1.9 microns, given in metres. -/
example {fmt : ℝ → ℝ} (hf : Prints5 fmt) :
    fmt (12 / 10000000) = 0 ∧ fmt (15 / 10000000) = 0 ∧ fmt (19 / 10000000) = 0 :=
  ⟨prints5_zero hf (by rw [abs_of_pos] <;> norm_num), prints5_zero hf (by rw [abs_of_pos] <;> norm_num),
    prints5_zero hf (by rw [abs_of_pos] <;> norm_num)⟩

/-- The full property fails for every printing and reading as in the code. -/
example {fmt stof : ℝ → ℝ} (hf : Prints5 fmt) (hs : ReadsFloat stof) : ¬ NumbersKept fmt stof := by
  intro h
  have h1 := h (1 / 1000000) (by rw [abs_of_pos] <;> norm_num)
  rw [prints5_zero hf (by rw [abs_of_pos] <;> norm_num)] at h1
  have h2 := (c105_numbers_partial hf hs).2 0 (by norm_num)
  have h3 := prints5_exact hf 0
  simp only [Int.cast_zero, zero_div] at h2 h3
  rw [h3] at h2
  rw [h2] at h1
  norm_num at h1

/-! ### C106 -/

/-- A program that always fails. -/
def Fails (exe : Exe) : Prop := ∀ a fs, (exe a fs).1 = false

/-- What is wanted: a wrapper whose program fails raises an error. -/
def ReportsFailure (run : Opts → Exe → FS → Except Fault Result × FS) : Prop :=
  ∀ o exe fs, Fails exe → ∃ e, (run o exe fs).1 = .error e

/-- **C106, R.** The R wrapper raises an error if the program fails. -/
theorem c106_r : ReportsFailure rRun := by
  intro o exe fs h
  refine ⟨.throw, ?_⟩
  unfold rRun
  simp only
  rw [if_neg (by rw [h]; simp)]

/-- Files that neither are parameter files of the directory nor change while they are written. -/
theorem maybePrint_other {p : Param} {name dir : String} {fs : FS} {q : Path}
    (h : q ≠ ⟨dir, name ++ ".asciipb"⟩) : (maybePrint p name dir fs).2 q = fs q := by
  unfold maybePrint
  split
  · rfl
  · simp [FS.write, h]

/-- The names of the inputs of a run. -/
def inputNames (o : Opts) : List String :=
  ["hier_params.asciipb", "mix_params.asciipb", "algo_params.asciipb", "data.csv"] ++
    (if o.grid.isSome then ["dens_grid.csv"] else [])

/-- The names of the outputs asked for. -/
def outputNames (o : Opts) : List String :=
  (if o.chains then ["chains.recordio"] else []) ++
  (if o.grid.isSome then ["eval_dens.csv"] else []) ++
  (if o.numClusters then ["n_clus.csv"] else []) ++
  (if o.clusters then ["clus.csv"] else []) ++
  (if o.bestClus then ["best_clus.csv"] else [])

theorem inputs_other {o : Opts} {fs : FS} {q : Path}
    (h : ¬ (q.dir = o.dir ∧ q.name ∈ inputNames o)) :
    writeInputs o (writeParams o fs).2 q = fs q := by
  have hne : ∀ n ∈ inputNames o, q ≠ ⟨o.dir, n⟩ := by
    rintro n hn rfl
    exact h ⟨rfl, hn⟩
  have h1 : (writeParams o fs).2 q = fs q := by
    unfold writeParams
    simp only
    rw [maybePrint_other (hne "algo_params.asciipb" (by simp [inputNames])),
      maybePrint_other (hne "mix_params.asciipb" (by simp [inputNames])),
      maybePrint_other (hne "hier_params.asciipb" (by simp [inputNames]))]
  unfold writeInputs
  cases hg : o.grid with
  | none =>
    simp only [FS.write]
    rw [if_neg (hne "data.csv" (by simp [inputNames])), h1]
  | some g =>
    simp only [FS.write]
    rw [if_neg (hne "dens_grid.csv" (by simp [inputNames, hg])),
      if_neg (hne "data.csv" (by simp [inputNames])), h1]

/-- The results named in the arguments, as they are in a file system. -/
def oldResults (o : Opts) (fs : FS) : Result where
  evalDens := if o.grid.isSome then fs ⟨o.dir, "eval_dens.csv"⟩ else none
  nClus := if o.numClusters then fs ⟨o.dir, "n_clus.csv"⟩ else none
  clus := if o.clusters then fs ⟨o.dir, "clus.csv"⟩ else none
  bestClus := if o.bestClus then fs ⟨o.dir, "best_clus.csv"⟩ else none
  chain := if o.chains then fs ⟨o.dir, "chains.recordio"⟩ else none

theorem readBack_wanted {fs : FS} {b : Bool} {p : Path} (h : b = true → (fs p).isSome) :
    readBack fs (wanted b p) = .ok (if b then fs p else none) := by
  cases b with
  | false => rfl
  | true =>
    obtain ⟨c, hc⟩ := Option.isSome_iff_exists.mp (h rfl)
    simp [wanted, readBack, hc]

theorem readResults_ok {o : Opts} {fs : FS} (h m a : Path)
    (hall : ∀ n ∈ outputNames o, (fs ⟨o.dir, n⟩).isSome) :
    readResults (mkArgs o h m a) fs = .ok (oldResults o fs) := by
  unfold readResults mkArgs
  simp only
  rw [readBack_wanted (fun hb => hall _ (by simp [outputNames, hb])), ok_bind,
    readBack_wanted (fun hb => hall _ (by simp [outputNames, hb])), ok_bind,
    readBack_wanted (fun hb => hall _ (by simp [outputNames, hb])), ok_bind,
    readBack_wanted (fun hb => hall _ (by simp [outputNames, hb])), ok_bind,
    readBack_wanted (fun hb => hall _ (by simp [outputNames, hb])), ok_bind]
  rfl

theorem output_not_input {o : Opts} {n : String} (hn : n ∈ outputNames o) :
    n ∉ inputNames o := by
  have h1 : n ∈ ["chains.recordio", "eval_dens.csv", "n_clus.csv", "clus.csv", "best_clus.csv"] := by
    unfold outputNames at hn
    simp only [List.mem_append] at hn
    rcases hn with (((hn | hn) | hn) | hn) | hn <;> split at hn <;> simp at hn <;> simp [hn]
  intro h2
  have h3 : n ∈ ["hier_params.asciipb", "mix_params.asciipb", "algo_params.asciipb", "data.csv",
      "dens_grid.csv"] := by
    unfold inputNames at h2
    simp only [List.mem_append] at h2
    rcases h2 with h2 | h2
    · simp at h2 ⊢; tauto
    · split at h2 <;> simp at h2; simp [h2]
  simp only [List.mem_cons, List.not_mem_nil, or_false] at h1 h3
  rcases h1 with rfl | rfl | rfl | rfl | rfl <;> revert h3 <;> decide

/-- **C106, Python.** A program that fails before it writes anything (for instance because it
cannot be started or does not understand its arguments) makes the Python wrapper return, without
an error, the results that an earlier run left in the output directory. -/
theorem c106_python_violated (o : Opts) (d : String) (hd : o.outDir = some d) (exe : Exe)
    (hfail : ∀ a fs, exe a fs = (false, fs)) (fs : FS)
    (hold : ∀ n ∈ outputNames o, (fs ⟨d, n⟩).isSome) :
    (pyRun o exe fs).1 = .ok (oldResults o fs) := by
  have hdir : o.dir = d := by simp [Opts.dir, hd]
  have hsame : ∀ n ∈ outputNames o,
      writeInputs o (writeParams o fs).2 ⟨o.dir, n⟩ = fs ⟨o.dir, n⟩ := by
    intro n hn
    exact inputs_other fun h => output_not_input hn h.2
  unfold pyRun
  simp only
  rw [hfail]
  simp only
  rw [readResults_ok]
  · simp only
    unfold oldResults
    have hs : ∀ (b : Bool) (n : String), (b = true → n ∈ outputNames o) →
        (if b = true then writeInputs o (writeParams o fs).2 ⟨o.dir, n⟩ else none) =
          if b = true then fs ⟨o.dir, n⟩ else none := by
      intro b n hb
      cases b with
      | false => rfl
      | true => simp only [if_true]; exact hsame n (hb rfl)
    rw [hs _ _ fun hb => by simp [outputNames, hb], hs _ _ fun hb => by simp [outputNames, hb],
      hs _ _ fun hb => by simp [outputNames, hb], hs _ _ fun hb => by simp [outputNames, hb],
      hs _ _ fun hb => by simp [outputNames, hb]]
  · intro n hn
    rw [hsame n hn, hdir]
    exact hold n hn

/-- **C106, Python.** A program that fails after it has opened its output files for writing
(`check_file_is_writeable` empties them) makes the Python wrapper return empty results without an
error, in every directory. -/
theorem c106_python_empty_violated (o : Opts) (exe : Exe)
    (hfail : ∀ a fs, exe a fs = (false, fun q => if q ∈ a.outputs then some "" else fs q))
    (fs : FS) :
    ∃ r, (pyRun o exe fs).1 = .ok r ∧ (o.clusters = true → r.clus = some "") ∧
      (o.numClusters = true → r.nClus = some "") ∧ (o.bestClus = true → r.bestClus = some "") ∧
      (o.grid.isSome = true → r.evalDens = some "") ∧ (o.chains = true → r.chain = some "") := by
  obtain ⟨p, hp⟩ : ∃ p, p = writeParams o fs := ⟨_, rfl⟩
  obtain ⟨fs', hfs'⟩ : ∃ fs' : FS, fs' = fun q =>
    if q ∈ (mkArgs o p.1.1 p.1.2.1 p.1.2.2).outputs then some "" else
      writeInputs o p.2 q := ⟨_, rfl⟩
  have hmem : ∀ n ∈ outputNames o,
      (⟨o.dir, n⟩ : Path) ∈ (mkArgs o p.1.1 p.1.2.1 p.1.2.2).outputs := by
    intro n hn
    unfold outputNames at hn
    simp only [List.mem_append] at hn
    simp only [Args.outputs, mkArgs, wanted, List.mem_append]
    rcases hn with (((hn | hn) | hn) | hn) | hn <;> split at hn <;> simp at hn <;> simp [*]
  have hemp : ∀ n ∈ outputNames o, fs' ⟨o.dir, n⟩ = some "" := by
    intro n hn
    rw [hfs']
    simp only
    rw [if_pos (hmem n hn)]
  refine ⟨oldResults o fs', ?_, ?_, ?_, ?_, ?_, ?_⟩
  · unfold pyRun
    simp only
    rw [hfail]
    simp only
    rw [← hp, ← hfs', readResults_ok]
    intro n hn
    rw [hemp n hn]
    rfl
  all_goals
    intro hb
    simp only [oldResults, hb, if_true]
    exact hemp _ (by simp [outputNames, hb])

/-- **C106, Python (partial).** Without an output directory, a program that fails and writes no
files makes the Python wrapper raise an error, if some result is asked for.  Missing: given
output directories with results of an earlier run (`c106_python_violated`) and failures after
the output files were opened (`c106_python_empty_violated`). -/
theorem c106_python_partial (o : Opts) (hd : o.outDir = none) (exe : Exe)
    (hfail : ∀ a fs, exe a fs = (false, fs)) (fs : FS) (hfresh : ∀ n, fs ⟨o.tmp, n⟩ = none)
    (hask : outputNames o ≠ []) : ∃ e, (pyRun o exe fs).1 = .error e := by
  have hdir : o.dir = o.tmp := by simp [Opts.dir, hd]
  have hnone : ∀ n ∈ outputNames o, writeInputs o (writeParams o fs).2 ⟨o.dir, n⟩ = none := by
    intro n hn
    rw [inputs_other fun h => output_not_input hn h.2, hdir]
    exact hfresh n
  unfold pyRun
  simp only
  rw [hfail]
  simp only
  cases h : readResults (mkArgs o (writeParams o fs).1.1 (writeParams o fs).1.2.1
      (writeParams o fs).1.2.2) (writeInputs o (writeParams o fs).2) with
  | error e => exact ⟨e, rfl⟩
  | ok r =>
    exfalso
    have hrb : ∀ (b : Bool) (n : String), (b = true → n ∈ outputNames o) → ∀ x,
        readBack (writeInputs o (writeParams o fs).2) (wanted b ⟨o.dir, n⟩) = .ok x →
        b = false := by
      intro b n hb x hx
      cases b with
      | false => rfl
      | true => simp [wanted, readBack, hnone n (hb rfl)] at hx
    unfold readResults mkArgs at h
    simp only at h
    cases h1 : readBack (writeInputs o (writeParams o fs).2)
        (wanted o.grid.isSome ⟨o.dir, "eval_dens.csv"⟩) with
    | error e => rw [h1] at h; cases h
    | ok x1 =>
    have b1 := hrb _ _ (fun hb => by simp [outputNames, hb]) x1 h1
    rw [h1, ok_bind] at h
    cases h2 : readBack (writeInputs o (writeParams o fs).2)
        (wanted o.numClusters ⟨o.dir, "n_clus.csv"⟩) with
    | error e => rw [h2] at h; cases h
    | ok x2 =>
    have b2 := hrb _ _ (fun hb => by simp [outputNames, hb]) x2 h2
    rw [h2, ok_bind] at h
    cases h3 : readBack (writeInputs o (writeParams o fs).2)
        (wanted o.clusters ⟨o.dir, "clus.csv"⟩) with
    | error e => rw [h3] at h; cases h
    | ok x3 =>
    have b3 := hrb _ _ (fun hb => by simp [outputNames, hb]) x3 h3
    rw [h3, ok_bind] at h
    cases h4 : readBack (writeInputs o (writeParams o fs).2)
        (wanted o.bestClus ⟨o.dir, "best_clus.csv"⟩) with
    | error e => rw [h4] at h; cases h
    | ok x4 =>
    have b4 := hrb _ _ (fun hb => by simp [outputNames, hb]) x4 h4
    rw [h4, ok_bind] at h
    cases h5 : readBack (writeInputs o (writeParams o fs).2)
        (wanted o.chains ⟨o.dir, "chains.recordio"⟩) with
    | error e => rw [h5] at h; cases h
    | ok x5 =>
    have b5 := hrb _ _ (fun hb => by simp [outputNames, hb]) x5 h5
    exact hask (by simp [outputNames, b1, b2, b3, b4, b5])

/-- Arguments used in the examples: parameters given as text, all results but the chain. -/
def exOpts (dir : Option String) : Opts where
  hier := ⟨⟨"", "hier"⟩, "fixed_values {}"⟩
  mix := ⟨⟨"", "mix"⟩, "fixed_value {}"⟩
  algo := ⟨⟨"", "algo"⟩, "algo_id: \"Neal2\""⟩
  data := "1.00000\n"
  grid := none
  outDir := dir
  tmp := "/tmp/tmpdir"
  clusters := true
  bestClus := true
  numClusters := true
  chains := false

/-- The directory of an earlier run. -/
def exFS : FS := fun q => if q.dir = "out" then some "old" else none

example : ∀ n ∈ outputNames (exOpts (some "out")), (exFS ⟨"out", n⟩).isSome := by
  intro n _; simp [exFS]

example : ¬ ReportsFailure pyRun := by
  intro h
  obtain ⟨e, he⟩ := h (exOpts (some "out")) (fun _ fs => (false, fs)) exFS (fun _ _ => rfl)
  rw [c106_python_violated (exOpts (some "out")) "out" rfl _ (fun _ _ => rfl) exFS
    (fun n _ => by simp [exFS])] at he
  cases he

example : (∀ n, exFS ⟨(exOpts none).tmp, n⟩ = none) ∧ outputNames (exOpts none) ≠ [] := by
  constructor
  · intro n; simp [exFS, exOpts]
  · simp [outputNames, exOpts]

/-! ### C107 -/

/-- A program that changes only the files that it is asked to write. -/
def WritesOutputs (exe : Exe) : Prop := ∀ a fs q, q ∉ a.outputs → (exe a fs).2 q = fs q

/-- What is wanted: with a given output directory, all files except the inputs of the run and the
outputs that were asked for are after the run what they were before. -/
def LeavesOthers (run : Opts → Exe → FS → Except Fault Result × FS) : Prop :=
  ∀ (o : Opts) (exe : Exe) (fs : FS) (d : String), o.outDir = some d → WritesOutputs exe →
    ∀ q : Path, ¬ (q.dir = d ∧ (q.name ∈ inputNames o ∨ q.name ∈ outputNames o)) →
      (run o exe fs).2 q = fs q

theorem not_output {o : Opts} {q h m a : Path}
    (hq : ¬ (q.dir = o.dir ∧ q.name ∈ outputNames o)) : q ∉ (mkArgs o h m a).outputs := by
  intro hmem
  apply hq
  simp only [Args.outputs, mkArgs, wanted, List.mem_append] at hmem
  rcases hmem with (((hn | hn) | hn) | hn) | hn <;> split at hn <;> simp at hn <;>
    subst hn <;> simp [outputNames, *]

/-- **C107, Python.** The Python wrapper leaves all other files alone, whether the program fails
or not. -/
theorem c107_python : LeavesOthers pyRun := by
  intro o exe fs d hd hexe q hq
  have hdir : o.dir = d := by simp [Opts.dir, hd]
  have h1 : ∀ h m a, (exe (mkArgs o h m a) (writeInputs o (writeParams o fs).2)).2 q = fs q := by
    intro h m a
    rw [hexe _ _ _ (not_output fun hh => hq ⟨hdir ▸ hh.1, Or.inr hh.2⟩)]
    exact inputs_other fun hh => hq ⟨hdir ▸ hh.1, Or.inl hh.2⟩
  unfold pyRun
  simp only
  split
  · exact h1 _ _ _
  · simp only [hd, Option.isNone_some, Bool.false_eq_true, if_false]
    exact h1 _ _ _

theorem rCreate_other {d : String} {fs : FS} {q : Path} (h : ¬ (q.dir = d ∧ q.name ∈ rCreated)) :
    rCreate d fs q = fs q := by
  have hne : ∀ n ∈ rCreated, q ≠ ⟨d, n⟩ := by
    rintro n hn rfl
    exact h ⟨rfl, hn⟩
  unfold rCreate
  have : ∀ (l : List String) (fs : FS), (∀ n ∈ l, q ≠ ⟨d, n⟩) →
      l.foldl (fun fs n => fs.write ⟨d, n⟩ "") fs q = fs q := by
    intro l
    induction l with
    | nil => intro fs _; rfl
    | cons a l ih =>
      intro fs hl
      rw [List.foldl_cons, ih _ fun n hn => hl n (by simp [hn])]
      simp [FS.write, hl a (by simp)]
  exact this _ _ hne

/-- **C107, R (partial).** If the program succeeds, the R wrapper leaves all files alone except
the files of parameters and the seven files that it creates.  Missing: failing programs, and
files of these seven that were not asked for, see `c107_r_violated`. -/
theorem c107_r_partial (o : Opts) (exe : Exe) (fs : FS) (d : String) (hd : o.outDir = some d)
    (hexe : WritesOutputs exe) (hok : ∀ a fs, (exe a fs).1 = true) (q : Path)
    (hq : ¬ (q.dir = d ∧ (q.name ∈ rCreated ∨ q.name ∈ inputNames o))) :
    (rRun o exe fs).2 q = fs q := by
  have hdir : o.dir = d := by simp [Opts.dir, hd]
  have hsub : ∀ n ∈ outputNames o, n ∈ rCreated := by
    intro n hn
    unfold outputNames at hn
    simp only [List.mem_append] at hn
    rcases hn with (((hn | hn) | hn) | hn) | hn <;> split at hn <;> simp at hn <;>
      simp [rCreated, hn]
  have h1 : ∀ h m a, (exe (mkArgs o h m a)
      (writeInputs o (writeParams o (rCreate o.dir fs)).2)).2 q = fs q := by
    intro h m a
    rw [hexe _ _ _ (not_output fun hh => hq ⟨hdir ▸ hh.1, Or.inl (hsub _ hh.2)⟩),
      inputs_other fun hh => hq ⟨hdir ▸ hh.1, Or.inr hh.2⟩]
    exact rCreate_other fun hh => hq ⟨hdir ▸ hh.1, Or.inl hh.2⟩
  unfold rRun
  simp only
  rw [if_pos (hok _ _)]
  split
  · exact h1 _ _ _
  · simp only [hd, Option.isNone_some, Bool.false_eq_true, if_false]
    exact h1 _ _ _

/-- **C107, R, failing cases.** If the program fails, every file in the directory that the user
chose is deleted; even if it succeeds, a chain that an earlier run stored there is emptied
although no chain was asked for. -/
theorem c107_r_violated (o : Opts) (exe : Exe) (fs : FS) (d : String) (hd : o.outDir = some d) :
    (Fails exe → ∀ n, (rRun o exe fs).2 ⟨d, n⟩ = none) ∧
    ((∀ a fs, (exe a fs).1 = true) → WritesOutputs exe → o.chains = false →
      (rRun o exe fs).2 ⟨d, "chains.recordio"⟩ = some "") := by
  have hdir : o.dir = d := by simp [Opts.dir, hd]
  constructor
  · intro hf n
    unfold rRun
    simp only
    rw [if_neg (by rw [hf]; simp)]
    simp [FS.rmdir, hdir]
  · intro hok hexe hc
    have hno : ¬ ("chains.recordio" ∈ outputNames o) := by
      unfold outputNames
      simp only [List.mem_append, hc]
      rintro ((((h | h) | h) | h) | h) <;> split at h <;> simp_all
    have hni : ¬ ("chains.recordio" ∈ inputNames o) := by
      unfold inputNames
      simp only [List.mem_append]
      rintro (h | h)
      · simp at h
      · split at h <;> simp at h
    have h1 : ∀ h m a, (exe (mkArgs o h m a)
        (writeInputs o (writeParams o (rCreate o.dir fs)).2)).2 ⟨d, "chains.recordio"⟩ =
          some "" := by
      intro h m a
      rw [hexe _ _ _ (not_output fun hh => hno hh.2), inputs_other fun hh => hni hh.2, hdir]
      simp [rCreate, rCreated, FS.write]
    unfold rRun
    simp only
    rw [if_pos (hok _ _)]
    split
    · exact h1 _ _ _
    · simp only [hd, Option.isNone_some, Bool.false_eq_true, if_false]
      exact h1 _ _ _

/-- A directory that also holds a thesis loses it if the R wrapper is called with arguments that
the program rejects. -/
example : exFS ⟨"out", "thesis.tex"⟩ = some "old" ∧
    (rRun (exOpts (some "out")) (fun _ fs => (false, fs)) exFS).2 ⟨"out", "thesis.tex"⟩ = none :=
  ⟨by simp [exFS], (c107_r_violated _ _ exFS "out" rfl).1 (fun _ _ => rfl) _⟩

example : ¬ LeavesOthers rRun := by
  intro h
  have h1 := h (exOpts (some "out")) (fun _ fs => (false, fs)) exFS "out" rfl (fun _ _ _ _ => rfl)
    ⟨"out", "thesis.tex"⟩ (by
      rintro ⟨-, h | h⟩ <;> revert h <;> simp [inputNames, outputNames, exOpts])
  rw [(c107_r_violated _ _ exFS "out" rfl).1 (fun _ _ => rfl)] at h1
  simp [exFS] at h1

/-- A program that succeeds and changes only its outputs. -/
example : WritesOutputs (fun a fs => (true, fun q => if q ∈ a.outputs then some "1" else fs q)) := by
  intro a fs q hq
  simp [hq]

/-! ### C108 -/

/-- The shapes of `eval_dens`, `n_clus`, `clus` and `best_clus` as returned by the Python wrapper
for `s` stored iterations, `n` observations and `g` grid points: the files have `s × g`, `s × 1`,
`s × n` and `n × 1` entries (`executables/run_mcmc.cc` 212-252). -/
def pyShapes (s n g : ℕ) : List (List ℕ) :=
  [loadtxtShape s g, loadtxtShape s 1, loadtxtShape s n, loadtxtShape n 1]

/-- The shapes documented in `run.py` 87-98. -/
def docShapes (s n g : ℕ) : List (List ℕ) := [[s, g], [s], [s, n], [n]]

/-- **C108 (partial).** The four shapes are as documented if and only if there are at least two
stored iterations, two observations and two grid points (or none).  Missing: the cases with
exactly one of them, see `c108_shapes_violated`. -/
theorem c108_shapes_partial (s n g : ℕ) :
    pyShapes s n g = docShapes s n g ↔ s ≠ 1 ∧ n ≠ 1 ∧ g ≠ 1 := by
  unfold pyShapes docShapes loadtxtShape
  by_cases hs : s = 1 <;> by_cases hn : n = 1 <;> by_cases hg : g = 1 <;>
    simp [hs, hn, hg]

/-- **C108, failing cases.** With one stored iteration the clusterings come as a vector whose
length is the number of observations, the same shape as a chain of that length for one
observation; the number of clusters comes without any axis. -/
theorem c108_shapes_violated (n : ℕ) :
    loadtxtShape 1 n = loadtxtShape n 1 ∧ loadtxtShape 1 1 = [] ∧
    ∀ g, pyShapes 1 n g ≠ docShapes 1 n g := by
  refine ⟨?_, by simp [loadtxtShape], fun g => ?_⟩
  · unfold loadtxtShape
    by_cases hn : n = 1 <;> simp [hn]
  · intro h
    exact ((c108_shapes_partial 1 n g).mp h).1 rfl

example : pyShapes 1000 200 50 = docShapes 1000 200 50 :=
  (c108_shapes_partial 1000 200 50).mpr (by norm_num)

end Bayesmix.Wrappers
