import Verif.Program.Plot
import Verif.Program.PropsProgram
import Verif.Utils.PropsPlots
import Verif.Utils.Props

/-!
# Property C137: the figures of `plot_mcmc`
-/

namespace Bayesmix.Program
open Utils

variable {P : PlotLib} {writable : Str → Bool}

/-- The file `n` holds the matrix with the given rows. -/
def Holds (P : PlotLib) (fs : FS) (n : Str) (cols : ℕ) (rows : List (List ℝ)) : Prop :=
  ∃ c, fs n = some c ∧
    readEigenMatrix ',' P.stof c = .ok (rows.length, cols, rows.map fun r => r.map some)

/-- A matrix that was written by `write_matrix_to_file`, with numbers that are printed exactly. -/
theorem Holds.written {fs : FS} {n : Str} {fmt : ℝ → List Char} {m : RowMat ℝ} (hm : m.WF)
    (hrows : m.rows ≠ []) (hcols : 0 < m.cols)
    (hfmt : ∀ x, fmt x ≠ [] ∧ ',' ∉ fmt x ∧ '\n' ∉ fmt x)
    (hread : ∀ r ∈ m.rows, ∀ x ∈ r, P.stof (fmt x) = some x)
    (h : fs n = some (writeMatrixToFile ',' fmt m)) : Holds P fs n m.cols m.rows :=
  ⟨_, h, c51_roundtrip_partial ',' fmt P.stof id m hm hrows hcols (by decide) hfmt hread⟩

/-- A column of integers. -/
theorem Holds.written_nat {fs : FS} {n : Str} {fmt : ℕ → List Char} {ks : List ℕ} (hne : ks ≠ [])
    (hfmt : ∀ k, fmt k ≠ [] ∧ ',' ∉ fmt k ∧ '\n' ∉ fmt k)
    (hread : ∀ k ∈ ks, P.stof (fmt k) = some (k : ℝ))
    (h : fs n = some (writeMatrixToFile ',' fmt ⟨1, ks.map fun k : ℕ => [k]⟩)) :
    Holds P fs n 1 (ks.map fun k : ℕ => [(k : ℝ)]) := by
  refine Holds.written (fmt := fun x => fmt ⌊x⌋₊) (m := ⟨1, ks.map fun k : ℕ => [(k : ℝ)]⟩) ?_ ?_
    (by norm_num) (fun x => hfmt _) ?_ ?_
  · simp [RowMat.WF]
  · simpa using hne
  · intro r hr x hx
    simp only [List.mem_map] at hr
    obtain ⟨k, hk, rfl⟩ := hr
    simp only [List.mem_singleton] at hx
    subst hx
    rw [Nat.floor_natCast]
    exact hread k hk
  · rw [h]
    unfold writeMatrixToFile
    simp [Function.comp_def]

theorem readReal_ok {fs : FS} {n : Str} {cols : ℕ} {rows : List (List ℝ)}
    (h : Holds P fs n cols rows) : readReal P n fs = (.ok (rows.length, cols, rows), fs) := by
  obtain ⟨c, hc, hr⟩ := h
  have h1 : ∀ r : List ℝ, (r.map some).mapM entry = .ok r := by
    intro r
    induction r with
    | nil => rfl
    | cons a r ih => rw [List.map_cons, List.mapM_cons, ih]; rfl
  have h2 : ∀ rs : List (List ℝ), ((rs.map fun r => r.map some).mapM fun r => r.mapM entry) =
      .ok rs := by
    intro rs
    induction rs with
    | nil => rfl
    | cons a r ih =>
      rw [List.map_cons, List.mapM_cons, ih, h1]; rfl
  unfold readReal
  rw [hc]
  dsimp only
  rw [hr]
  have h3 := h2 rows
  change (_ : Except Fault (ℕ × ℕ × List (List ℝ)) × FS) = _
  rw [ok_bind]
  dsimp only
  rw [h3]
  rfl

theorem Holds.congr {fs fs' : FS} {n : Str} {cols : ℕ} {rows : List (List ℝ)}
    (h : Holds P fs n cols rows) (he : fs' n = fs n) : Holds P fs' n cols rows := by
  obtain ⟨c, hc, hr⟩ := h
  exact ⟨c, he.trans hc, hr⟩

theorem plot_get {L : List (Str × Str)} {o : OptSpec} (ho : o ∈ plotOpts) :
    getArg (stateOf plotOpts L) o.name = .ok (optVal L o.name) := by
  have hd : o.dflt = some (.str emptyStr) := by
    revert ho
    simp only [plotOpts, List.mem_cons, List.not_mem_nil, or_false]
    rintro (rfl | rfl | rfl | rfl | rfl | rfl) <;> rfl
  rw [plotOpts_good.get ho]
  unfold optVal
  cases valueIn L o.name with
  | some v => rfl
  | none => simp [OptSpec.fallback, hd, AnyVal.asString]

/-- Saves a figure if it was asked for. -/
def saved (P : PlotLib) (asked : Prop) [Decidable asked] (fs : FS) (n : Str) (f : Figure) : FS :=
  if asked then fs.put n (P.render f) else fs

theorem put_put (fs : FS) (n : Str) (a b : List Char) : (fs.put n a).put n b = fs.put n b := by
  funext q
  by_cases h : q = n
  · subst h; rw [FS.put_same, FS.put_same]
  · rw [FS.put_other h, FS.put_other h, FS.put_other h]

theorem saved_other {asked : Prop} [Decidable asked] {fs : FS} {n q : Str} {f : Figure}
    (h : asked → q ≠ n) : saved P asked fs n f q = fs q := by
  unfold saved
  by_cases ha : asked
  · rw [if_pos ha, FS.put_other (h ha)]
  · rw [if_neg ha]

theorem saved_same {asked : Prop} [Decidable asked] {fs : FS} {n : Str} {f : Figure}
    (h : asked) : saved P asked fs n f n = some (P.render f) := by
  unfold saved
  rw [if_pos h, FS.put_same]

theorem check_ok {n : Str} (h : writable n = true) (fs : FS) :
    checkWriteable writable n fs = (.ok (), fs.put n []) := by
  unfold checkWriteable; rw [if_pos h]

theorem save_ok {n : Str} (h : writable n = true) (f : Figure) (fs : FS) :
    save P writable n f fs = (.ok (), fs.put n (P.render f)) := by
  unfold save writeFile; rw [if_pos h]

theorem traceBlock_ok {ncl plot : Str} {fs : FS} {rows : List (List ℝ)} {cols : ℕ}
    (hw : plot ≠ emptyStr → writable plot = true)
    (hne : plot ≠ emptyStr → ncl ≠ plot) (h : ncl ≠ emptyStr → Holds P fs ncl cols rows) :
    traceBlock P writable ncl plot fs =
      (.ok (), saved P (ncl ≠ emptyStr ∧ plot ≠ emptyStr) fs plot (numClusTrace cols rows)) := by
  unfold traceBlock saved
  by_cases ha : ncl ≠ emptyStr ∧ plot ≠ emptyStr
  · rw [whenP_pos ha, if_pos ha, bind_of (check_ok (hw ha.2) fs),
      bind_of (readReal_ok ((h ha.1).congr (FS.put_other (hne ha.2)))), save_ok (hw ha.2), put_put]
  · rw [whenP_neg ha, if_neg ha, pure_prog]

theorem barBlock_ok {ncl plot : Str} {fs : FS} {rows : List (List ℝ)} {cols : ℕ} {f : Figure}
    (hw : plot ≠ emptyStr → writable plot = true)
    (hne : plot ≠ emptyStr → ncl ≠ plot) (h : ncl ≠ emptyStr → Holds P fs ncl cols rows)
    (hf : ncl ≠ emptyStr → numClusBars cols rows = .ok f) :
    barBlock P writable ncl plot fs =
      (.ok (), saved P (ncl ≠ emptyStr ∧ plot ≠ emptyStr) fs plot f) := by
  unfold barBlock saved
  by_cases ha : ncl ≠ emptyStr ∧ plot ≠ emptyStr
  · rw [whenP_pos ha, if_pos ha, bind_of (check_ok (hw ha.2) fs),
      bind_of (readReal_ok ((h ha.1).congr (FS.put_other (hne ha.2))))]
    dsimp only
    rw [hf ha.1, bind_of (show liftE (.ok f) _ = (.ok f, _) from rfl), save_ok (hw ha.2), put_put]
  · rw [whenP_neg ha, if_neg ha, pure_prog]

theorem castInt_nat {k : ℕ} (h : k < 2 ^ 31) : castInt (k : ℝ) = .ok (k : ℤ) := by
  unfold castInt
  rw [if_pos (Nat.cast_nonneg k), Int.floor_natCast]
  dsimp only
  rw [if_pos]
  constructor
  · have : (0 : ℤ) ≤ (k : ℤ) := Int.natCast_nonneg k
    have h2 : (0 : ℤ) < 2 ^ 31 := by norm_num
    omega
  · exact_mod_cast h

theorem castInt_list (ks : List ℕ) (h : ∀ k ∈ ks, k < 2 ^ 31) :
    (ks.map fun k : ℕ => [(k : ℝ)]).mapM (fun r => castInt (r.getD 0 0)) =
      .ok (ks.map fun k : ℕ => (k : ℤ)) := by
  induction ks with
  | nil => rfl
  | cons k ks ih =>
    rw [List.map_cons, List.mapM_cons, ih fun x hx => h x (List.mem_cons_of_mem _ hx)]
    rw [List.getD_cons_zero, castInt_nat (h k (by simp))]
    rfl

theorem colMajor_single (xs : List ℝ) : colMajor 1 (xs.map fun x => [x]) = xs := by
  simp [colMajor, Function.comp_def]

/-- The mean over the states of the density at every point of the grid. -/
noncomputable def meanDensity {S : Type} (lpdf : S → List ℝ) (states : List S) (n : ℕ) : List ℝ :=
  (List.range n).map fun j =>
    (states.map fun s => Real.exp ((lpdf s).getD j 0)).sum / states.length

theorem colMeans_perm {S : Type} (lpdf : S → List ℝ) (states : List S) (n : ℕ)
    (hl : ∀ s ∈ states, (lpdf s).length = n) (rows : List (List ℝ))
    (hp : rows.Perm (states.map lpdf)) :
    colMeans n (rows.map fun r => r.map Real.exp) = meanDensity lpdf states n := by
  unfold colMeans meanDensity
  refine List.map_congr_left fun j hj => ?_
  rw [List.mem_range] at hj
  have h1 : ((rows.map fun r => r.map Real.exp).map fun r => r.getD j 0).sum =
      (((states.map lpdf).map fun r => r.map Real.exp).map fun r => r.getD j 0).sum :=
    List.Perm.sum_eq ((hp.map _).map _)
  rw [h1, List.length_map, hp.length_eq, List.length_map, List.map_map, List.map_map]
  congr 2
  refine List.map_congr_left fun s hs => ?_
  have hjs : j < (lpdf s).length := by rw [hl s hs]; exact hj
  simp [List.getD_eq_getElem?_getD, List.getElem?_map, List.getElem?_eq_getElem hjs]

theorem densPlotBlock_ok {grid dens plot : Str} {fs : FS} {gcols : ℕ} {grows drows : List (List ℝ)}
    {f : Figure} (hw : plot ≠ emptyStr → writable plot = true)
    (hne : plot ≠ emptyStr → grid ≠ plot ∧ dens ≠ plot)
    (h : grid ≠ emptyStr → dens ≠ emptyStr → plot ≠ emptyStr →
      Holds P fs grid gcols grows ∧ Holds P fs dens grows.length drows ∧
      ((gcols = 1 ∧ f = densityPlot1d grows
          (colMeans grows.length (drows.map fun r => r.map Real.exp))) ∨
        (gcols = 2 ∧ densityPlot2d grows
          (colMeans grows.length (drows.map fun r => r.map Real.exp)) = .ok f))) :
    densPlotBlock P writable grid dens plot fs =
      (.ok (), saved P (grid ≠ emptyStr ∧ dens ≠ emptyStr ∧ plot ≠ emptyStr) fs plot f) := by
  unfold densPlotBlock saved
  by_cases ha : grid ≠ emptyStr ∧ dens ≠ emptyStr ∧ plot ≠ emptyStr
  · obtain ⟨h1, h2, h3⟩ := h ha.1 ha.2.1 ha.2.2
    have hp := hne ha.2.2
    rw [whenP_pos ha, if_pos ha, bind_of (check_ok (hw ha.2.2) fs),
      bind_of (readReal_ok (h1.congr (FS.put_other hp.1))),
      bind_of (readReal_ok (h2.congr (FS.put_other hp.2)))]
    dsimp only
    rw [if_neg (not_not.2 rfl)]
    rcases h3 with ⟨rfl, rfl⟩ | ⟨rfl, h3⟩
    · rw [if_pos rfl, save_ok (hw ha.2.2), put_put]
    · rw [if_neg (by norm_num), if_pos rfl, h3,
        bind_of (show liftE (.ok f) _ = (.ok f, _) from rfl), save_ok (hw ha.2.2), put_put]
  · rw [whenP_neg ha, if_neg ha, pure_prog]

/-- The three figures that can be asked for, by the options that name their files. -/
def plotNames : List Str :=
  ["--n-cl-trace-plot".toList, "--n-cl-bar-plot".toList, "--dens-plot".toList]

/-- The files that are read. -/
def plotInputs : List Str := ["--n-cl-file".toList, "--grid-file".toList, "--dens-file".toList]

/-- Options and values for `plot_mcmc`: known options, each at most once; the figures are written to
files that can be written and that differ from each other and from the files that are read. -/
structure PlotCall (writable : Str → Bool) (L : List (Str × Str)) : Prop where
  given : Given plotOpts L
  writable : ∀ n ∈ plotNames, optVal L n ≠ emptyStr → writable (optVal L n) = true
  inputs : ∀ n ∈ plotNames, optVal L n ≠ emptyStr → ∀ i ∈ plotInputs, optVal L i ≠ optVal L n
  outputs : ∀ n ∈ plotNames, ∀ m ∈ plotNames, n ≠ m → optVal L n ≠ emptyStr → optVal L n ≠ optVal L m

theorem plot_parse {L : List (Str × Str)} (hL : Given plotOpts L) :
    parseArgs (parserOf plotOpts) (words L) = .ok (stateOf plotOpts L) := by
  refine parse_state plotOpts_good hL fun o ho hr => ?_
  have : o.required = false := by
    revert ho
    simp only [plotOpts, List.mem_cons, List.not_mem_nil, or_false]
    rintro (rfl | rfl | rfl | rfl | rfl | rfl) <;> rfl
  rw [this] at hr
  cases hr

theorem plot_all {L : List (Str × Str)} (hL : PlotCall writable L) {fs : FS} {ncols gcols : ℕ}
    {nrows grows drows : List (List ℝ)} {fb fd : Figure}
    (hn : optVal L "--n-cl-file".toList ≠ emptyStr →
      Holds P fs (optVal L "--n-cl-file".toList) ncols nrows ∧ numClusBars ncols nrows = .ok fb)
    (hd : optVal L "--grid-file".toList ≠ emptyStr → optVal L "--dens-file".toList ≠ emptyStr →
      optVal L "--dens-plot".toList ≠ emptyStr →
      Holds P fs (optVal L "--grid-file".toList) gcols grows ∧
      Holds P fs (optVal L "--dens-file".toList) grows.length drows ∧
      ((gcols = 1 ∧ fd = densityPlot1d grows
          (colMeans grows.length (drows.map fun r => r.map Real.exp))) ∨
        (gcols = 2 ∧ densityPlot2d grows
          (colMeans grows.length (drows.map fun r => r.map Real.exp)) = .ok fd))) :
    ∃ fs', plotMcmc P writable (words L) fs = (.status 0, fs') ∧
      (optVal L "--n-cl-file".toList ≠ emptyStr → optVal L "--n-cl-trace-plot".toList ≠ emptyStr →
        fs' (optVal L "--n-cl-trace-plot".toList) =
          some (P.render (numClusTrace ncols nrows))) ∧
      (optVal L "--n-cl-file".toList ≠ emptyStr → optVal L "--n-cl-bar-plot".toList ≠ emptyStr →
        fs' (optVal L "--n-cl-bar-plot".toList) = some (P.render fb)) ∧
      (optVal L "--grid-file".toList ≠ emptyStr → optVal L "--dens-file".toList ≠ emptyStr →
        optVal L "--dens-plot".toList ≠ emptyStr →
        fs' (optVal L "--dens-plot".toList) = some (P.render fd)) ∧
      ∀ q, (∀ n ∈ plotNames, optVal L n ≠ emptyStr → q ≠ optVal L n) → fs' q = fs q := by
  have g1 := plot_get (L := L) (o := ⟨"--n-cl-file".toList, false, some (.str emptyStr)⟩)
    (by simp [plotOpts])
  have g2 := plot_get (L := L) (o := ⟨"--n-cl-trace-plot".toList, false, some (.str emptyStr)⟩)
    (by simp [plotOpts])
  have g3 := plot_get (L := L) (o := ⟨"--n-cl-bar-plot".toList, false, some (.str emptyStr)⟩)
    (by simp [plotOpts])
  have g4 := plot_get (L := L) (o := ⟨"--grid-file".toList, false, some (.str emptyStr)⟩)
    (by simp [plotOpts])
  have g5 := plot_get (L := L) (o := ⟨"--dens-file".toList, false, some (.str emptyStr)⟩)
    (by simp [plotOpts])
  have g6 := plot_get (L := L) (o := ⟨"--dens-plot".toList, false, some (.str emptyStr)⟩)
    (by simp [plotOpts])
  dsimp only at g1 g2 g3 g4 g5 g6
  have mt : "--n-cl-trace-plot".toList ∈ plotNames := by simp [plotNames]
  have mb : "--n-cl-bar-plot".toList ∈ plotNames := by simp [plotNames]
  have md : "--dens-plot".toList ∈ plotNames := by simp [plotNames]
  have mn : "--n-cl-file".toList ∈ plotInputs := by simp [plotInputs]
  have mg : "--grid-file".toList ∈ plotInputs := by simp [plotInputs]
  have me : "--dens-file".toList ∈ plotInputs := by simp [plotInputs]
  have otb := hL.outputs _ mt _ mb (by decide)
  have otd := hL.outputs _ mt _ md (by decide)
  have obd := hL.outputs _ mb _ md (by decide)
  have hall := hL.inputs
  have itn := fun h => hall _ mt h _ mn
  have ibn := fun h => hall _ mb h _ mn
  have itg := fun h => hall _ mt h _ mg
  have ibg := fun h => hall _ mb h _ mg
  have idg := fun h => hall _ md h _ mg
  have ite := fun h => hall _ mt h _ me
  have ibe := fun h => hall _ mb h _ me
  have ide := fun h => hall _ md h _ me
  have wt := hL.writable _ mt
  have wb := hL.writable _ mb
  have wd := hL.writable _ md
  have hq0 : ∀ q, (∀ n ∈ plotNames, optVal L n ≠ emptyStr → q ≠ optVal L n) →
      (optVal L "--n-cl-trace-plot".toList ≠ emptyStr → q ≠ optVal L "--n-cl-trace-plot".toList) ∧
      (optVal L "--n-cl-bar-plot".toList ≠ emptyStr → q ≠ optVal L "--n-cl-bar-plot".toList) ∧
      (optVal L "--dens-plot".toList ≠ emptyStr → q ≠ optVal L "--dens-plot".toList) :=
    fun q h => ⟨h _ mt, h _ mb, h _ md⟩
  unfold plotMcmc
  rw [plot_parse hL.given]
  dsimp only
  unfold plotBody
  rw [g1, g2, g3, g4, g5, g6]
  clear g1 g2 g3 g4 g5 g6 mt mb md mn mg me hall
  revert hn hd otb otd obd itn ibn itg ibg idg ite ibe ide wt wb wd hq0
  generalize optVal L "--n-cl-file".toList = ncl
  generalize optVal L "--n-cl-trace-plot".toList = tr
  generalize optVal L "--n-cl-bar-plot".toList = br
  generalize optVal L "--grid-file".toList = gr
  generalize optVal L "--dens-file".toList = de
  generalize optVal L "--dens-plot".toList = pl
  intro hn hd otb otd obd itn ibn itg ibg idg ite ibe ide wt wb wd hq0
  have lift : ∀ {β γ : Type} (v : β) (k : β → Prog γ) (fs : FS),
      ((liftE (.ok v) : Prog β) >>= k) fs = k v fs := fun v k fs => bind_of rfl
  rw [lift, lift, lift]
  have ht := traceBlock_ok (P := P) (writable := writable) (fs := fs) (rows := nrows)
    (cols := ncols) wt itn (fun h => (hn h).1)
  rw [bind_of ht]
  generalize hfs1 : saved P (ncl ≠ emptyStr ∧ tr ≠ emptyStr) fs tr (numClusTrace ncols nrows) = fs1
  have o1 : ∀ q, (tr ≠ emptyStr → q ≠ tr) → fs1 q = fs q := by
    intro q h
    rw [← hfs1]
    exact saved_other fun ha => h ha.2
  have hb := barBlock_ok (P := P) (writable := writable) (fs := fs1) (rows := nrows)
    (cols := ncols) (f := fb) wb ibn (fun h => (hn h).1.congr (o1 _ itn)) (fun h => (hn h).2)
  rw [bind_of hb]
  generalize hfs2 : saved P (ncl ≠ emptyStr ∧ br ≠ emptyStr) fs1 br fb = fs2
  have o2 : ∀ q, (br ≠ emptyStr → q ≠ br) → fs2 q = fs1 q := by
    intro q h
    rw [← hfs2]
    exact saved_other fun ha => h ha.2
  rw [lift, lift, lift]
  have hde := densPlotBlock_ok (P := P) (writable := writable) (fs := fs2) (gcols := gcols)
    (grows := grows) (drows := drows) (f := fd) (grid := gr) (dens := de) wd
    (fun h => ⟨idg h, ide h⟩) (fun h1 h2 h3 => by
      obtain ⟨a, b, c⟩ := hd h1 h2 h3
      exact ⟨a.congr ((o2 _ ibg).trans (o1 _ itg)), b.congr ((o2 _ ibe).trans (o1 _ ite)), c⟩)
  rw [hde]
  generalize hfs3 : saved P (gr ≠ emptyStr ∧ de ≠ emptyStr ∧ pl ≠ emptyStr) fs2 pl fd = fs3
  have o3 : ∀ q, (pl ≠ emptyStr → q ≠ pl) → fs3 q = fs2 q := by
    intro q h
    rw [← hfs3]
    exact saved_other fun ha => h ha.2.2
  refine ⟨fs3, rfl, fun h1 h2 => ?_, fun h1 h2 => ?_, fun h1 h2 h3 => ?_, fun q hq => ?_⟩
  · rw [o3 _ fun _ => otd h2, o2 _ fun _ => otb h2, ← hfs1]
    exact saved_same ⟨h1, h2⟩
  · rw [o3 _ fun _ => obd h2, ← hfs2]
    exact saved_same ⟨h1, h2⟩
  · rw [← hfs3]
    exact saved_same ⟨h1, h2, h3⟩
  · obtain ⟨a, b, c⟩ := hq0 q hq
    rw [o3 q c, o2 q b, o1 q a]

/-- **C137, partial (one dimension).** Let the file of the numbers of clusters hold one number per
iteration, the grid file a column of points, and the density file the log densities of the saved
states at these points, in any order of the states (C24). Then `plot_mcmc` ends normally; the
traceplot shows the numbers of clusters in their order against 1, 2, ...; the bars show the share of
iterations for every number of clusters between the smallest and the largest; the curve shows at
every point of the grid the mean over the states of the density; and no other file is changed.
Missing: grids of two columns, see `c137_contour_partial`. -/
theorem c137_figures_partial {L : List (Str × Str)} (hL : PlotCall writable L) {fs : FS}
    (ks : List ℕ) (hks : ks ≠ []) (hlt : ∀ k ∈ ks, k < 2 ^ 31)
    (hn : optVal L "--n-cl-file".toList ≠ emptyStr →
      Holds P fs (optVal L "--n-cl-file".toList) 1 (ks.map fun k : ℕ => [(k : ℝ)]))
    {S : Type} (lpdf : S → List ℝ) (states : List S) (xs : List ℝ) (rows : List (List ℝ))
    (hl : ∀ s ∈ states, (lpdf s).length = xs.length) (hp : rows.Perm (states.map lpdf))
    (hg : optVal L "--grid-file".toList ≠ emptyStr →
      Holds P fs (optVal L "--grid-file".toList) 1 (xs.map fun x => [x]))
    (hd : optVal L "--dens-file".toList ≠ emptyStr →
      Holds P fs (optVal L "--dens-file".toList) xs.length rows) :
    ∃ fs', plotMcmc P writable (words L) fs = (.status 0, fs') ∧
      (optVal L "--n-cl-file".toList ≠ emptyStr → optVal L "--n-cl-trace-plot".toList ≠ emptyStr →
        fs' (optVal L "--n-cl-trace-plot".toList) = some (P.render (.trace
          ((List.range ks.length).map fun i : ℕ => (i : ℝ) + 1) (ks.map fun k : ℕ => (k : ℝ))))) ∧
      (optVal L "--n-cl-file".toList ≠ emptyStr → optVal L "--n-cl-bar-plot".toList ≠ emptyStr →
        ∃ (lo hi : ℕ) (heights : List ℝ), lo ∈ ks ∧ hi ∈ ks ∧ (∀ k ∈ ks, lo ≤ k ∧ k ≤ hi) ∧
          heights.length = hi - lo + 1 ∧
          (∀ k, lo ≤ k → k ≤ hi → heights[k - lo]? = some ((ks.count k : ℝ) / ks.length)) ∧
          fs' (optVal L "--n-cl-bar-plot".toList) = some (P.render (.bars
            ((List.range (hi - lo + 1)).map fun k : ℕ => (lo : ℤ) + (k : ℤ)) heights))) ∧
      (optVal L "--grid-file".toList ≠ emptyStr → optVal L "--dens-file".toList ≠ emptyStr →
        optVal L "--dens-plot".toList ≠ emptyStr →
        fs' (optVal L "--dens-plot".toList) = some (P.render (.line xs
          ((List.range xs.length).map fun j =>
            (states.map fun s => Real.exp ((lpdf s).getD j 0)).sum / states.length)))) ∧
      ∀ q, (∀ n ∈ plotNames, optVal L n ≠ emptyStr → q ≠ optVal L n) → fs' q = fs q := by
  obtain ⟨lo, hi, heights, hlo, hhi, hb, hbars, hlen, hval, -⟩ :=
    c104_bars (ks.map fun k : ℕ => (k : ℤ)) (by simpa using hks)
  obtain ⟨lo, hlo', rfl⟩ := List.mem_map.1 hlo
  obtain ⟨hi, hhi', rfl⟩ := List.mem_map.1 hhi
  have hle : (lo : ℤ) ≤ (hi : ℤ) := (hb _ hlo).2
  have htn : ((hi : ℤ) - (lo : ℤ) + 1).toNat = hi - lo + 1 := by omega
  have hfb : numClusBars 1 (ks.map fun k : ℕ => [(k : ℝ)]) =
      .ok (.bars ((List.range (hi - lo + 1)).map fun k : ℕ => (lo : ℤ) + (k : ℤ)) heights) := by
    unfold numClusBars
    rw [castInt_list ks hlt, ok_bind, hbars, ok_bind, htn]
    rfl
  obtain ⟨fs', e, h1, h2, h3, h4⟩ := plot_all (P := P) (gcols := 1) (ncols := 1)
    (grows := xs.map fun x => [x]) (drows := rows)
    (fd := densityPlot1d (xs.map fun x => [x])
      (colMeans (xs.map fun x => [x]).length (rows.map fun r => r.map Real.exp))) hL (fs := fs)
    (fun h => ⟨hn h, hfb⟩) (fun a b _ => ⟨hg a, by
      rw [List.length_map]; exact hd b, Or.inl ⟨rfl, rfl⟩⟩)
  refine ⟨fs', e, fun a b => ?_, fun a b => ?_, fun a b c => ?_, h4⟩
  · rw [h1 a b]
    unfold numClusTrace
    have : (ks.map fun k : ℕ => [(k : ℝ)]) = (ks.map fun k : ℕ => (k : ℝ)).map fun x => [x] := by
      rw [List.map_map]; rfl
    rw [this, colMajor_single]
    simp
  · refine ⟨lo, hi, heights, hlo', hhi', fun k hk => ?_, hlen.trans htn, fun k hk1 hk2 => ?_,
      h2 a b⟩
    · have := hb k (List.mem_map.2 ⟨k, hk, rfl⟩)
      omega
    · have := hval (k : ℤ) (by exact_mod_cast hk1) (by exact_mod_cast hk2)
      rw [List.length_map, List.count_map_of_injective _ _ Nat.cast_injective] at this
      rw [← this]
      congr 1
      omega
  · rw [h3 a b c]
    unfold densityPlot1d
    rw [colMajor_single, List.length_map, colMeans_perm lpdf states xs.length hl rows hp]
    rfl

/-- **C137, partial (two dimensions).** On a square grid of at least two by two points, whatever the
order of the states in the density file, the contour plot shows at every point of the grid the
logarithm of the mean over the states of the density. Missing: all other rectangular grids, see
`c137_rectangle_violated`. -/
theorem c137_contour_partial {L : List (Str × Str)} (hL : PlotCall writable L) {fs : FS}
    (hn : optVal L "--n-cl-file".toList = emptyStr)
    {S : Type} (lpdf : S → List ℝ) (states : List S) (x y : ℕ → ℝ) (n : ℕ) (hn2 : 2 ≤ n)
    (hx : x 0 ≠ x 1) (rows : List (List ℝ))
    (hl : ∀ s ∈ states, (lpdf s).length = n * n) (hp : rows.Perm (states.map lpdf))
    (hg : Holds P fs (optVal L "--grid-file".toList) 2
      ((List.range (n * n)).map fun k => [x (k / n), y (k % n)]))
    (hd : Holds P fs (optVal L "--dens-file".toList) (n * n) rows)
    (h1 : optVal L "--grid-file".toList ≠ emptyStr) (h2 : optVal L "--dens-file".toList ≠ emptyStr)
    (h3 : optVal L "--dens-plot".toList ≠ emptyStr) :
    ∃ fs', plotMcmc P writable (words L) fs = (.status 0, fs') ∧
      fs' (optVal L "--dens-plot".toList) = some (P.render (.contour
        (table n n fun i _ => x i) (table n n fun _ j => y j)
        (table n n fun i j => Real.log
          ((states.map fun s => Real.exp ((lpdf s).getD (i * n + j) 0)).sum / states.length)))) := by
  have hm : densityPlot2d ((List.range (n * n)).map fun k => [x (k / n), y (k % n)])
      (colMeans ((List.range (n * n)).map fun k => [x (k / n), y (k % n)]).length
        (rows.map fun r => r.map Real.exp)) = .ok (.contour
        (table n n fun i _ => x i) (table n n fun _ j => y j)
        (table n n fun i j => Real.log
          ((states.map fun s => Real.exp ((lpdf s).getD (i * n + j) 0)).sum / states.length))) := by
    have e1 : (((List.range (n * n)).map fun k => [x (k / n), y (k % n)]).map
        fun r => r.getD 0 0) = gridX x n n := by simp [gridX, Function.comp_def]
    have e2 : (((List.range (n * n)).map fun k => [x (k / n), y (k % n)]).map
        fun r => r.getD 1 0) = gridY y n n := by simp [gridY, Function.comp_def]
    have e3 : (colMeans ((List.range (n * n)).map fun k => [x (k / n), y (k % n)]).length
        (rows.map fun r => r.map Real.exp)).map Real.log = gridVals (fun i j => Real.log
          ((states.map fun s => Real.exp ((lpdf s).getD (i * n + j) 0)).sum / states.length)) n n := by
      rw [List.length_map, List.length_range, colMeans_perm lpdf states (n * n) hl rows hp]
      unfold meanDensity gridVals
      rw [List.map_map]
      refine List.map_congr_left fun k _ => ?_
      have : k / n * n + k % n = k := by rw [Nat.mul_comm]; exact Nat.div_add_mod k n
      simp only [Function.comp_apply, this]
    unfold densityPlot2d
    rw [e1, e2, e3, c103_mesh_partial n hn2 x y _ hx]
    rfl
  obtain ⟨fs', e, -, -, h, -⟩ := plot_all (P := P) (gcols := 2) (ncols := 0) (nrows := [])
    (grows := (List.range (n * n)).map fun k => [x (k / n), y (k % n)]) (drows := rows)
    (fb := .line [] []) (fd := _) hL (fs := fs)
    (fun h => absurd hn h) (fun _ _ _ => ⟨hg, by
      rw [List.length_map, List.length_range]; exact hd, Or.inr ⟨rfl, hm⟩⟩)
  exact ⟨fs', e, h h1 h2 h3⟩

theorem plot_dens_only {L : List (Str × Str)} (hL : Given plotOpts L) {fs : FS}
    (hn : optVal L "--n-cl-file".toList = emptyStr) :
    plotMcmc P writable (words L) fs =
      match densPlotBlock P writable (optVal L "--grid-file".toList)
        (optVal L "--dens-file".toList) (optVal L "--dens-plot".toList) fs with
      | (.ok _, fs) => (.status 0, fs)
      | (.error e, fs) => (.died e, fs) := by
  have g1 := plot_get (L := L) (o := ⟨"--n-cl-file".toList, false, some (.str emptyStr)⟩)
    (by simp [plotOpts])
  have g2 := plot_get (L := L) (o := ⟨"--n-cl-trace-plot".toList, false, some (.str emptyStr)⟩)
    (by simp [plotOpts])
  have g3 := plot_get (L := L) (o := ⟨"--n-cl-bar-plot".toList, false, some (.str emptyStr)⟩)
    (by simp [plotOpts])
  have g4 := plot_get (L := L) (o := ⟨"--grid-file".toList, false, some (.str emptyStr)⟩)
    (by simp [plotOpts])
  have g5 := plot_get (L := L) (o := ⟨"--dens-file".toList, false, some (.str emptyStr)⟩)
    (by simp [plotOpts])
  have g6 := plot_get (L := L) (o := ⟨"--dens-plot".toList, false, some (.str emptyStr)⟩)
    (by simp [plotOpts])
  dsimp only at g1 g2 g3 g4 g5 g6
  unfold plotMcmc
  rw [plot_parse hL]
  dsimp only
  unfold plotBody
  rw [g1, g2, g3, g4, g5, g6, hn]
  have lift : ∀ {β γ : Type} (v : β) (k : β → Prog γ) (fs : FS),
      ((liftE (.ok v) : Prog β) >>= k) fs = k v fs := fun v k fs => bind_of rfl
  rw [lift, lift, lift]
  have t1 : ∀ p, traceBlock P writable emptyStr p = pure () := fun p => by
    unfold traceBlock; rw [whenP_neg (fun h => h.1 rfl)]
  have t2 : ∀ p, barBlock P writable emptyStr p = pure () := fun p => by
    unfold barBlock; rw [whenP_neg (fun h => h.1 rfl)]
  rw [t1, t2, bind_of (pure_prog () fs), bind_of (pure_prog () fs), lift, lift, lift]
  rfl

/-- The density block up to the two matrices. -/
theorem densPlotBlock_read {grid dens plot : Str} {fs : FS} {gcols dcols : ℕ}
    {grows drows : List (List ℝ)} (h1 : grid ≠ emptyStr) (h2 : dens ≠ emptyStr)
    (h3 : plot ≠ emptyStr) (hw : writable plot = true)
    (hg : Holds P (fs.put plot []) grid gcols grows)
    (hd : Holds P (fs.put plot []) dens dcols drows) :
    densPlotBlock P writable grid dens plot fs =
      (if grows.length ≠ dcols then liftE (.error .throw)
      else if gcols = 1 then save P writable plot (densityPlot1d grows
        (colMeans dcols (drows.map fun r => r.map Real.exp)))
      else if gcols = 2 then do
        let f ← liftE (densityPlot2d grows (colMeans dcols (drows.map fun r => r.map Real.exp)))
        save P writable plot f
      else pure ()) (fs.put plot []) := by
  unfold densPlotBlock
  rw [whenP_pos ⟨h1, h2, h3⟩, bind_of (check_ok hw fs), bind_of (readReal_ok hg),
    bind_of (readReal_ok hd)]

/-- **C137, violation (rectangular grids).** On every grid with at least two points on the first axis
and a different number of points on the second, the program writes outside of its tables after it
emptied the file of the figure. -/
theorem c137_rectangle_violated {L : List (Str × Str)} (hL : PlotCall writable L) {fs : FS}
    (hn : optVal L "--n-cl-file".toList = emptyStr) (x y : ℕ → ℝ) (nx ny : ℕ) (hnx : 2 ≤ nx)
    (hny : 1 ≤ ny) (hne : nx ≠ ny) (hx : x 0 ≠ x 1) (rows : List (List ℝ))
    (hg : Holds P fs (optVal L "--grid-file".toList) 2
      ((List.range (nx * ny)).map fun k => [x (k / ny), y (k % ny)]))
    (hd : Holds P fs (optVal L "--dens-file".toList) (nx * ny) rows)
    (h1 : optVal L "--grid-file".toList ≠ emptyStr) (h2 : optVal L "--dens-file".toList ≠ emptyStr)
    (h3 : optVal L "--dens-plot".toList ≠ emptyStr) :
    plotMcmc P writable (words L) fs = (.died .ub, fs.put (optVal L "--dens-plot".toList) []) := by
  have md : "--dens-plot".toList ∈ plotNames := by simp [plotNames]
  have ig := hL.inputs _ md h3 "--grid-file".toList (by simp [plotInputs])
  have id := hL.inputs _ md h3 "--dens-file".toList (by simp [plotInputs])
  rw [plot_dens_only hL.given hn, densPlotBlock_read h1 h2 h3 (hL.writable _ md h3)
    (hg.congr (FS.put_other ig)) (hd.congr (FS.put_other id)), if_neg (by simp),
    if_neg (by norm_num), if_pos rfl]
  have e1 : (((List.range (nx * ny)).map fun k => [x (k / ny), y (k % ny)]).map
      fun r => r.getD 0 0) = gridX x nx ny := by simp [gridX, Function.comp_def]
  have e2 : (((List.range (nx * ny)).map fun k => [x (k / ny), y (k % ny)]).map
      fun r => r.getD 1 0) = gridY y nx ny := by simp [gridY, Function.comp_def]
  have e3 : (colMeans (nx * ny) (rows.map fun r => r.map Real.exp)).map Real.log =
      gridVals (fun i j => Real.log (((rows.map fun r => r.map Real.exp).map
        fun r => r.getD (i * ny + j) 0).sum / (rows.map fun r => r.map Real.exp).length)) nx ny := by
    unfold colMeans gridVals
    rw [List.map_map]
    refine List.map_congr_left fun k _ => ?_
    have : k / ny * ny + k % ny = k := by rw [Nat.mul_comm]; exact Nat.div_add_mod k ny
    simp only [Function.comp_apply, this]
  have hm : densityPlot2d ((List.range (nx * ny)).map fun k => [x (k / ny), y (k % ny)])
      (colMeans (nx * ny) (rows.map fun r => r.map Real.exp)) = .error .ub := by
    unfold densityPlot2d
    rw [e1, e2, e3, (c103_mesh_violated nx ny hny x y _).1 hnx hne hx]
    rfl
  rw [hm, bind_err (show (liftE (.error .ub) : Prog Figure) _ = (.error .ub, _) from rfl)]

/-- **C137, violation (nothing to plot).** If the grid has more than two columns the program ends
normally without a figure, and a figure that the file held before is gone. -/
theorem c137_dimension_violated {L : List (Str × Str)} (hL : PlotCall writable L) {fs : FS}
    (hn : optVal L "--n-cl-file".toList = emptyStr) (cols : ℕ) (hc : 2 < cols)
    (grows rows : List (List ℝ))
    (hg : Holds P fs (optVal L "--grid-file".toList) cols grows)
    (hd : Holds P fs (optVal L "--dens-file".toList) grows.length rows)
    (h1 : optVal L "--grid-file".toList ≠ emptyStr) (h2 : optVal L "--dens-file".toList ≠ emptyStr)
    (h3 : optVal L "--dens-plot".toList ≠ emptyStr) :
    plotMcmc P writable (words L) fs =
      (.status 0, fs.put (optVal L "--dens-plot".toList) []) := by
  have md : "--dens-plot".toList ∈ plotNames := by simp [plotNames]
  have ig := hL.inputs _ md h3 "--grid-file".toList (by simp [plotInputs])
  have id := hL.inputs _ md h3 "--dens-file".toList (by simp [plotInputs])
  rw [plot_dens_only hL.given hn, densPlotBlock_read h1 h2 h3 (hL.writable _ md h3)
    (hg.congr (FS.put_other ig)) (hd.congr (FS.put_other id)), if_neg (by simp),
    if_neg (by omega), if_neg (by omega), pure_prog]

/-- **C137, violation (file names).** If the figure is to be saved under the name of the density
file, the densities are removed before they are read and the program dies. -/
theorem c137_name_violated {L : List (Str × Str)} (hL : Given plotOpts L) {fs : FS}
    (hn : optVal L "--n-cl-file".toList = emptyStr)
    (hs : optVal L "--dens-plot".toList = optVal L "--dens-file".toList)
    (hw : writable (optVal L "--dens-file".toList) = true) (cols : ℕ) (grows : List (List ℝ))
    (hne : grows ≠ []) (hg : Holds P fs (optVal L "--grid-file".toList) cols grows)
    (hgd : optVal L "--grid-file".toList ≠ optVal L "--dens-file".toList)
    (h1 : optVal L "--grid-file".toList ≠ emptyStr)
    (h2 : optVal L "--dens-file".toList ≠ emptyStr) :
    plotMcmc P writable (words L) fs =
      (.died .throw, fs.put (optVal L "--dens-file".toList) []) := by
  have hd : Holds P (fs.put (optVal L "--dens-file".toList) [])
      (optVal L "--dens-file".toList) 0 [] := ⟨[], FS.put_same _ _ _, rfl⟩
  rw [plot_dens_only hL hn, hs, densPlotBlock_read h1 h2 h2 hw
    (hg.congr (FS.put_other hgd)) hd, if_pos (by simpa using hne)]
  rfl

/-! ### Examples -/

/-- Options that ask for all figures. -/
def exPlot : List (Str × Str) :=
  [("--grid-file".toList, "grid.csv".toList), ("--dens-file".toList, "dens.csv".toList),
   ("--n-cl-file".toList, "ncl.csv".toList), ("--dens-plot".toList, "dens.png".toList),
   ("--n-cl-trace-plot".toList, "trace.png".toList), ("--n-cl-bar-plot".toList, "bar.png".toList)]

theorem exPlot_call : PlotCall (fun _ => true) exPlot := by
  refine ⟨⟨by decide, by decide, by decide⟩, fun _ _ _ => rfl, ?_, ?_⟩
  · decide
  · decide

/-- The same for the density alone. -/
theorem exPlot_dens : PlotCall (fun _ => true)
    [("--grid-file".toList, "grid.csv".toList), ("--dens-file".toList, "dens.csv".toList),
     ("--dens-plot".toList, "dens.png".toList)] := by
  refine ⟨⟨by decide, by decide, by decide⟩, fun _ _ _ => rfl, ?_, ?_⟩ <;> decide

/-- A reader of the numbers zero and one. -/
noncomputable def exPlotLib : PlotLib :=
  ⟨fun s => if s = ['0'] then some 0 else if s = ['1'] then some 1 else none, fun _ => ['p']⟩

/-- Two iterations, a grid of two points, two states. -/
example : ∃ fs', plotMcmc exPlotLib (fun _ => true) (words exPlot)
    (fun n => if n = "grid.csv".toList then some "0\n1".toList
      else if n = "dens.csv".toList then some "0,1\n1,0".toList
      else if n = "ncl.csv".toList then some "1\n1".toList else none) = (.status 0, fs') := by
  have z : ∀ l : List Char, exPlotLib.stof l = if l = ['0'] then some 0 else
    if l = ['1'] then some 1 else none := fun _ => rfl
  obtain ⟨fs', e, -⟩ := c137_figures_partial (P := exPlotLib) exPlot_call [1, 1] (by simp)
    (by decide)
    (fs := fun n => if n = "grid.csv".toList then some "0\n1".toList
      else if n = "dens.csv".toList then some "0,1\n1,0".toList
      else if n = "ncl.csv".toList then some "1\n1".toList else none)
    (fun _ => ⟨"1\n1".toList, by decide, by
      simp [readEigenMatrix, getlines, countCols, readRow, storeEntry, z]
      rfl⟩)
    (S := List ℝ) id [[1, 0], [0, 1]] [0, 1] [[0, 1], [1, 0]] (by simp) (by
      simpa using List.Perm.swap _ _ _)
    (fun _ => ⟨"0\n1".toList, by decide, by
      simp [readEigenMatrix, getlines, countCols, readRow, storeEntry, z]
      rfl⟩)
    (fun _ => ⟨"0,1\n1,0".toList, by decide, by
      simp [readEigenMatrix, getlines, countCols, readRow, storeEntry, z]
      rfl⟩)
  exact ⟨fs', e⟩

end Bayesmix.Program
