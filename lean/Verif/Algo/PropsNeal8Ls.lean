import Verif.Algo.PropsBlockedLs
import Verif.Algo.PropsNeal8Chain

/-!
# C153: Neal8 with the Normal x inverse Gamma hierarchy
-/

namespace Bayesmix.Chain
open Bayesmix Cond Gibbs SplitMerge Slice Mixing Hierarchies MeasureTheory ENNReal ProbabilityTheory

variable {Z W : Type} [MeasurableSpace Z] [MeasurableSpace W] {ζ : Measure Z} {gen : Z → ℝ → ℝ → ℝ}
  {ω : Measure W} {ig : W → ℝ → ℝ → ℝ} {n : ℕ}

/-- `Neal2Algorithm::sample_unique_values` (`src/algorithms/neal2_algorithm.cc` 64-68, inherited by
Neal8) with `SemiConjugateUpdater::draw` (`src/hierarchies/updaters/semi_conjugate_updater.h` 68-83): the
cluster of the block `q` is the object `obj σ q` in the state of its rows; each cluster is drawn once. -/
noncomputable def lsPartValues (h : NxIG) (gen : Z → ℝ → ℝ → ℝ) (ζ : Measure Z) (ig : W → ℝ → ℝ → ℝ)
    (ω : Measure W) (obj : (σ : Setoid (Fin n)) → Quotient σ → Cluster UniNormStats UniLS)
    (Ψ : Spot n → (Fin n → UniLS) → ℝ≥0∞) : Spot n → (Fin n → UniLS) → ℝ≥0∞ := fun z x =>
  ∫⁻ e, Ψ z (fun i => (nnxigDraw h { obj z.1 (Quotient.mk z.1 i) with state := x i }
      (gen (e (Quotient.mk z.1 i)).1) (ig (e (Quotient.mk z.1 i)).2)).state)
    ∂Measure.pi fun _ : Quotient z.1 => ζ.prod ω

/-- One iteration of Neal8 (`src/algorithms/base_algorithm.h` 179-184) with `m + 1` auxiliary blocks and
fixed hyperparameters: all rows in turn, then all values. The row updates are those that C116 derives from the code. -/
noncomputable def lsNeal8 (w : Setoid (Fin n) → ℝ) (h : NxIG) (gen : Z → ℝ → ℝ → ℝ) (ζ : Measure Z)
    (ig : W → ℝ → ℝ → ℝ) (ω : Measure W) (data : ℤ → ℝ) (m : ℕ)
    (obj : (σ : Setoid (Fin n)) → Quotient σ → Cluster UniNormStats UniLS)
    (Φ : Setoid (Fin n) → (Fin n → UniLS) → ℝ≥0∞) : Setoid (Fin n) → (Fin n → UniLS) → ℝ≥0∞ :=
  fun σ x => sweepOp (row8Op w (lsLike data) (nxigLaw h) m) (List.finRange n)
    (lsPartValues h gen ζ ig ω obj fun z => Φ z.1) (σ, ∅) x

/-- The objects hold the rows of their blocks, and were filled by calls of the library. -/
def LsPartObjects (data : ℤ → ℝ)
    (obj : (σ : Setoid (Fin n)) → Quotient σ → Cluster UniNormStats UniLS) : Prop :=
  ∀ σ q, (∃ c0 ops, runOps uniNormUpd data (clearAll uniNormZero c0) ops = .ok (obj σ q)) ∧
    ∀ z : ℤ, z ∈ (obj σ q).idx ↔ ∃ i : Fin n, Quotient.mk σ i = q ∧ z = (i.val : ℤ)

theorem rowFlow_mono {w : Setoid (Fin n) → ℝ} {like : UniLS → ℕ → ℝ} {ν : Measure UniLS} (i : Fin n)
    {Φ Ψ : Setoid (Fin n) → (Fin n → UniLS) → ℝ≥0∞} (h : ∀ σ x, Φ σ x ≤ Ψ σ x) (σ : Setoid (Fin n))
    (x : Fin n → UniLS) : rowFlow w like ν i Φ σ x ≤ rowFlow w like ν i Ψ σ x := by
  unfold rowFlow
  refine add_le_add (Finset.sum_le_sum fun τ _ => ?_) ?_
  · exact mul_le_mul' le_rfl (mul_le_mul' le_rfl (h _ _))
  · exact mul_le_mul' le_rfl (lintegral_mono fun t => mul_le_mul' le_rfl (h _ _))

theorem row8_mono {w : Setoid (Fin n) → ℝ} {like : UniLS → ℕ → ℝ} {ν : Measure UniLS} (m : ℕ) (i : Fin n)
    {Φ Ψ : Setoid (Fin n) → (Fin n → UniLS) → ℝ≥0∞} (h : ∀ σ x, Φ σ x ≤ Ψ σ x) (σ : Setoid (Fin n))
    (x : Fin n → UniLS) : row8 w like ν m i Φ σ x ≤ row8 w like ν m i Ψ σ x := by
  unfold row8
  split
  · exact lintegral_mono fun a => ENNReal.div_le_div_right (rowFlow_mono i h σ x) _
  · exact lintegral_mono fun a => ENNReal.div_le_div_right (rowFlow_mono i h σ x) _

theorem sweep8_mono {w : Setoid (Fin n) → ℝ} {like : UniLS → ℕ → ℝ} {ν : Measure UniLS} (m : ℕ)
    (l : List (Fin n)) {Φ Ψ : Spot n → (Fin n → UniLS) → ℝ≥0∞} (h : ∀ z x, Φ z x ≤ Ψ z x) (z : Spot n)
    (x : Fin n → UniLS) : sweepOp (row8Op w like ν m) l Φ z x ≤ sweepOp (row8Op w like ν m) l Ψ z x := by
  induction l generalizing z x with
  | nil => exact h z x
  | cons i l ih => exact row8_mono m i (fun τ y => ih _ _) _ _

open Classical in
/-- Functions of the value of row `i0` that vanish unless all rows are together. -/
noncomputable def together (i0 : Fin n) (g : UniLS → ℝ≥0∞) :
    Setoid (Fin n) → (Fin n → UniLS) → ℝ≥0∞ := fun σ x => if σ = ⊤ then g (x i0) else 0

theorem together_meas (i0 : Fin n) {g : UniLS → ℝ≥0∞} (hg : Measurable g) : MeasP (together i0 g) := by
  intro σ
  unfold together
  by_cases h : σ = ⊤
  · simp only [h, if_true]
    exact hg.comp (measurable_pi_apply i0)
  · simp only [h, if_false]
    exact measurable_const

/-- With all rows together, the target gives functions of their value the posterior mean times the
weight of the partition. -/
theorem partPost_together (w : Setoid (Fin n) → ℝ) (h : NxIG) (hv0 : 0 < h.var) (ha : 0 < h.shape)
    (hb : 0 < h.scale) (data : ℤ → ℝ) (i0 : Fin n) (idx : Finset ℤ)
    (hidx : ∀ z : ℤ, z ∈ idx ↔ ∃ i : Fin n, z = (i.val : ℤ)) {g : UniLS → ℝ≥0∞} (hg : Measurable g) :
    partPost w (lsLike data) (nxigLaw h) (together i0 g) =
      ENNReal.ofReal (w ⊤) * lsPostMean h data idx g := by
  have hν := nxigLaw_prob h hv0 ha hb
  rw [partPost, Finset.sum_eq_single (⊤ : Setoid (Fin n))]
  · congr 1
    have hL : Measurable fun st : UniLS =>
        ENNReal.ofReal (∏ i : Fin n, Real.exp (lsLike data st i)) * g st :=
      (ENNReal.measurable_ofReal.comp (Finset.measurable_fun_prod Finset.univ fun (i : Fin n) _ =>
        Real.measurable_exp.comp (measurable_lsLike data i.val))).mul hg
    have hq : ∀ i : Fin n, (Quotient.mk (⊤ : Setoid (Fin n)) i) = Quotient.mk ⊤ i0 := fun i =>
      Quotient.sound trivial
    have e : ∀ θ : Quotient (⊤ : Setoid (Fin n)) → UniLS,
        likOn (lsLike data) Finset.univ (fun i => θ (Quotient.mk ⊤ i)) *
          together i0 g ⊤ (fun i => θ (Quotient.mk ⊤ i)) =
        ENNReal.ofReal (∏ i : Fin n, Real.exp (lsLike data (θ (Quotient.mk ⊤ i0)) i)) *
          g (θ (Quotient.mk ⊤ i0)) := by
      intro θ
      simp only [together, if_true, likOn, hq]
    rw [lintegral_congr e, (measurePreserving_eval (fun _ : Quotient (⊤ : Setoid (Fin n)) => nxigLaw h)
      (Quotient.mk ⊤ i0)).lintegral_comp hL, lintegral_nxigLaw h hL, lsPostMean]
    refine lintegral_congr fun p => ?_
    have hsum : ∑ z ∈ idx, uniNormLpdf ⟨p.1, p.2⟩ (data z) =
        ∑ i : Fin n, lsLike data ⟨p.1, p.2⟩ i := by
      symm
      refine Finset.sum_bij (fun i _ => (i.val : ℤ)) (fun i _ => (hidx _).2 ⟨i, rfl⟩) ?_ ?_ ?_
      · intro i _ j _ hij
        exact Fin.ext (by exact_mod_cast hij)
      · intro z hz
        obtain ⟨i, hi⟩ := (hidx z).1 hz
        exact ⟨i, Finset.mem_univ _, hi.symm⟩
      · intro i _
        rfl
    rw [clusterDens, hsum, Real.exp_add, Real.exp_sum, mul_comm (∏ i : Fin n, _),
      ENNReal.ofReal_mul (Real.exp_pos _).le, mul_assoc]
  · intro σ _ hσ
    simp [together, hσ]
  · intro h0
    exact absurd (Finset.mem_univ _) h0

/-- The target has finite mass. -/
theorem partPost_finite (w : Setoid (Fin n) → ℝ) (h : NxIG) (hv0 : 0 < h.var) (ha : 0 < h.shape)
    (hb : 0 < h.scale) (data : ℤ → ℝ) :
    partPost w (lsLike data) (nxigLaw h) (fun (_ : Setoid (Fin n)) _ => 1) ≠ ∞ := by
  have hν := nxigLaw_prob h hv0 ha hb
  rw [partPost]
  refine ENNReal.sum_ne_top.2 fun σ _ => ENNReal.mul_ne_top ENNReal.ofReal_ne_top ?_
  have hm : ∀ q : Quotient σ, Measurable fun st : UniLS =>
      ENNReal.ofReal (∏ i ∈ blockRows σ q, Real.exp (lsLike data st i)) := fun q =>
    ENNReal.measurable_ofReal.comp (Finset.measurable_fun_prod _ fun i _ =>
      Real.measurable_exp.comp (measurable_lsLike data i))
  have e : ∀ θ : Quotient σ → UniLS, likOn (lsLike data) Finset.univ (fun i => θ (Quotient.mk σ i)) * 1 =
      ∏ q, ENNReal.ofReal (∏ i ∈ blockRows σ q, Real.exp (lsLike data (θ q) i)) := fun θ => by
    rw [mul_one, likOn_blocks]
  rw [lintegral_congr e, lintegral_prod_pi (fun _ : Quotient σ => nxigLaw h)
    (fun q st => ENNReal.ofReal (∏ i ∈ blockRows σ q, Real.exp (lsLike data st i))) hm]
  refine ENNReal.prod_ne_top fun q _ => ?_
  rw [lintegral_nxigLaw h (hm q)]
  convert clusterDens_finite h hv0 ha hb data ((blockRows σ q).map Nat.castEmbedding) using 3 with p
  rw [clusterDens, Finset.sum_map, Real.exp_add, Real.exp_sum, mul_comm (∏ i ∈ blockRows σ q, _),
    ENNReal.ofReal_mul (Real.exp_pos _).le]
  rfl

theorem neal8_ls_core (hg : NormalGen ζ gen) (hi : GenLaw ω ig invGammaLaw) (p : NxIGPrior) (h : NxIG)
    (hp : nxigInit p = .ok h) (data : ℤ → ℝ) (hn : 0 < n) (w : Setoid (Fin n) → ℝ) (hw : ∀ σ, 0 < w σ)
    (m : ℕ) (obj : (σ : Setoid (Fin n)) → Quotient σ → Cluster UniNormStats UniLS)
    (hobj : LsPartObjects data obj) :
    partPost w (lsLike data) (nxigLaw h) (fun (_ : Setoid (Fin n)) _ => 1) ≠ 0 ∧
    partPost w (lsLike data) (nxigLaw h) (fun (_ : Setoid (Fin n)) _ => 1) ≠ ∞ ∧
    ¬ ∀ Φ : Setoid (Fin n) → (Fin n → UniLS) → ℝ≥0∞, MeasP Φ →
      partPost w (lsLike data) (nxigLaw h) (lsNeal8 w h gen ζ ig ω data m obj Φ) =
        partPost w (lsLike data) (nxigLaw h) Φ := by
  classical
  obtain ⟨hv0, ha, hb⟩ := nxigInit_pos hp
  have hν := nxigLaw_prob h hv0 ha hb
  have hζ := hg.prob
  have hω := hi.prob
  obtain ⟨i0, hi0⟩ : ∃ i0 : Fin n, i0 = ⟨0, hn⟩ := ⟨_, rfl⟩
  obtain ⟨q0, hq0⟩ : ∃ q0 : Quotient (⊤ : Setoid (Fin n)), q0 = Quotient.mk ⊤ i0 := ⟨_, rfl⟩
  obtain ⟨⟨c0, ops, hrun⟩, hmem⟩ := hobj ⊤ q0
  have hidx : ∀ z : ℤ, z ∈ (obj ⊤ q0).idx ↔ ∃ i : Fin n, z = (i.val : ℤ) := by
    intro z
    rw [hmem z]
    refine exists_congr fun i => and_iff_right ?_
    rw [hq0]
    exact Quotient.sound trivial
  have h0 : (obj ⊤ q0).card ≠ 0 := by
    have h3 := (c34_cardinality uniNormUpd data uniNormZero c0 _ ops hrun).1
    have h4 : (obj ⊤ q0).idx.card ≠ 0 := Finset.card_ne_zero_of_mem ((hidx _).2 ⟨i0, rfl⟩)
    omega
  have h151 := c151_violated hg hi p h hp data c0 _ ops hrun h0
  have hC0 : ENNReal.ofReal (w ⊤) ≠ 0 := by simpa using hw ⊤
  have hpost := fun {g : UniLS → ℝ≥0∞} (hgm : Measurable g) =>
    partPost_together w h hv0 ha hb data i0 _ hidx hgm
  refine ⟨fun hz => ?_, partPost_finite w h hv0 ha hb data, fun hkeep => h151.2.2 fun ψ hψ => ?_⟩
  · have h1 := hpost (g := fun _ => 1) measurable_const
    have hle := partPost_mono (w := w) (like := lsLike data) (ν := nxigLaw h)
      (Φ := together i0 fun _ => 1) (Ψ := fun _ _ => 1) fun σ x => by
        unfold together
        split <;> simp
    rw [hz, h1] at hle
    exact mul_ne_zero hC0 h151.1 (le_antisymm hle zero_le)
  obtain ⟨k, hkm, hkpos, hkone, hdraw⟩ := ls_draw_density hg hi p h hp data c0 _ ops hrun h0
  obtain ⟨M, V, B, A, hA, hVpos, hBpos, hBm, hMm, hVm, hpar, hD1, hD2⟩ :=
    ls_conditionals p h hp data c0 _ ops hrun h0
  have hSF : SigmaFinite lsVol := by unfold lsVol; infer_instance
  have hψ2 : Measurable fun q : ℝ × ℝ => ψ ⟨q.1, q.2⟩ := hψ.comp measurable_mk
  -- the mean after the draw, as a measurable function
  obtain ⟨T, hT⟩ : ∃ T : UniLS → ℝ≥0∞,
    T = fun st => ∫⁻ y, k (st.mean, st.var) y * ψ ⟨y.1, y.2⟩ ∂lsVol := ⟨_, rfl⟩
  have hTm : Measurable T := by
    have hj : Measurable fun r : (ℝ × ℝ) × (ℝ × ℝ) => k r.1 r.2 * ψ ⟨r.2.1, r.2.2⟩ :=
      hkm.mul (hψ2.comp measurable_snd)
    rw [hT]
    exact hj.lintegral_prod_right'.comp measurable_pair
  have hTd : ∀ st : UniLS, 0 < st.var → lsDrawMean h gen ζ ig ω (obj ⊤ q0) ψ st = T st := by
    intro st hst
    rw [hT]
    exact hdraw ψ hψ st.mean st.var hst
  -- bounds that do not ask for positive variances
  have hset : MeasurableSet {st : UniLS | 0 < st.var} := measurableSet_lt measurable_const measurable_var
  obtain ⟨F, hF⟩ : ∃ F : ℝ≥0∞ → UniLS → ℝ≥0∞, F = fun r st => if 0 < st.var then T st else r := ⟨_, rfl⟩
  have hFm : ∀ r, Measurable (F r) := by
    intro r
    rw [hF]
    exact Measurable.ite hset hTm measurable_const
  have hFe : ∀ r, lsPostMean h data (obj ⊤ q0).idx (F r) =
      lsPostMean h data (obj ⊤ q0).idx (lsDrawMean h gen ζ ig ω (obj ⊤ q0) ψ) := by
    intro r
    unfold lsPostMean
    refine lintegral_congr_ae ?_
    filter_upwards [lsVol_ae] with q hq
    have hq' : 0 < (⟨q.1, q.2⟩ : UniLS).var := hq
    rw [hTd _ hq', hF]
    dsimp only
    rw [if_pos hq]
  have hvals : ∀ (z : Spot n) (x : Fin n → UniLS), 0 < (x i0).var →
      lsPartValues h gen ζ ig ω obj (fun z => together i0 ψ z.1) z x = together i0 T z.1 x := by
    rintro ⟨σ, A'⟩ x hx
    unfold lsPartValues together
    dsimp only
    by_cases hc : σ = ⊤
    · subst hc
      simp only [if_true]
      have hs := Real.sqrt_pos.2 (hVpos _ hx)
      have hD : ∀ e : Z × W, (nnxigDraw h { obj ⊤ q0 with state := x i0 } (gen e.1) (ig e.2)).state =
          ⟨gen e.1 (M (x i0).var) (Real.sqrt (V (x i0).var)), ig e.2 A (B (x i0).mean)⟩ := by
        intro e
        rw [nnxigDraw, if_neg h0]
        dsimp only
        have := hpar (x i0).mean (x i0).var
        rw [show (⟨(x i0).mean, (x i0).var⟩ : UniLS) = x i0 from rfl] at this
        rw [this]
        rfl
      have hDm : Measurable fun e : Z × W =>
          ψ (nnxigDraw h { obj ⊤ q0 with state := x i0 } (gen e.1) (ig e.2)).state := by
        simp only [hD]
        exact hψ2.comp (((hg.meas _ _ hs).comp measurable_fst).prodMk
          ((hi.meas _ _ hA (hBpos _)).comp measurable_snd))
      rw [← hq0, (measurePreserving_eval (fun _ : Quotient (⊤ : Setoid (Fin n)) => ζ.prod ω)
        q0).lintegral_comp hDm, lintegral_prod _ hDm.aemeasurable]
      exact hTd _ hx
    · simp [hc]
  have hbd : ∀ (z : Spot n) (x : Fin n → UniLS),
      together i0 (F 0) z.1 x ≤ lsPartValues h gen ζ ig ω obj (fun z => together i0 ψ z.1) z x ∧
      lsPartValues h gen ζ ig ω obj (fun z => together i0 ψ z.1) z x ≤ together i0 (F ∞) z.1 x := by
    intro z x
    by_cases hx : 0 < (x i0).var
    · rw [hvals z x hx]
      unfold together
      simp [hF, hx]
    · by_cases hc : z.1 = ⊤
      · unfold together
        simp [hF, hx, hc]
      · have hz : lsPartValues h gen ζ ig ω obj (fun z => together i0 ψ z.1) z x = 0 := by
          unfold lsPartValues together
          simp [hc]
        rw [hz]
        unfold together
        simp [hc]
  have hR := row8Op_rows (n := n) (w := w) (ν := nxigLaw h) (measurable_lsLike data) hw m
  have hsw : ∀ r, partPost w (lsLike data) (nxigLaw h) (fun σ x => sweepOp
      (row8Op w (lsLike data) (nxigLaw h) m) (List.finRange n) (fun z => together i0 (F r) z.1) (σ, ∅) x) =
      ENNReal.ofReal (w ⊤) *
        lsPostMean h data (obj ⊤ q0).idx (lsDrawMean h gen ζ ig ω (obj ⊤ q0) ψ) := by
    intro r
    rw [hR.sweep_inv (List.finRange n) (Ψ := fun z => together i0 (F r) z.1)
      (fun z => together_meas i0 (hFm r) z.1), ← hFe r]
    exact hpost (hFm r)
  have hup : partPost w (lsLike data) (nxigLaw h) (lsNeal8 w h gen ζ ig ω data m obj (together i0 ψ)) ≤
      ENNReal.ofReal (w ⊤) *
        lsPostMean h data (obj ⊤ q0).idx (lsDrawMean h gen ζ ig ω (obj ⊤ q0) ψ) := by
    rw [← hsw ∞]
    exact partPost_mono fun σ x => sweep8_mono m _ (fun z x => (hbd z x).2) _ _
  have hlo : ENNReal.ofReal (w ⊤) *
        lsPostMean h data (obj ⊤ q0).idx (lsDrawMean h gen ζ ig ω (obj ⊤ q0) ψ) ≤
      partPost w (lsLike data) (nxigLaw h) (lsNeal8 w h gen ζ ig ω data m obj (together i0 ψ)) := by
    rw [← hsw 0]
    exact partPost_mono fun σ x => sweep8_mono m _ (fun z x => (hbd z x).1) _ _
  have hfin := hkeep (together i0 ψ) (together_meas i0 hψ)
  rw [le_antisymm hup hlo, hpost hψ] at hfin
  exact (ENNReal.mul_right_inj hC0 ENNReal.ofReal_ne_top).1 hfin

instance : Nonempty UniLS := ⟨⟨0, 1⟩⟩

/-- **C153, row updates.** Where `lsNeal8` has `sweepOp`, the code has its sweep over the rows, with any
hierarchy that has this likelihood and prior. -/
theorem c153_row_updates {G : Type} [AddCommGroup G] (E : Env G NxIG UniLS) (p : NxIGPrior) (h : NxIG)
    (hp : nxigInit p = .ok h) {a b : ℝ} {py : PYState} (hpy : pyInit a b = .ok py) (pred : NxIG → ℕ → ℝ)
    (data : ℤ → ℝ) (hn : 2 ≤ n) (m : ℕ) {g : Alg8 G NxIG UniLS → ℝ≥0∞}
    {Ψ : Spot n → (Fin n → UniLS) → ℝ≥0∞} (hΨ : MeasX Ψ) (hg : Reads8 E h m g Ψ) :
    Reads8 E h m (neal8SweepMean E (lsLike data) (pyScores pred py) nxigLaw n (List.range n) g)
      (sweepOp (row8Op (weight (pyPrior py)) (lsLike data) (nxigLaw h) m) (List.finRange n) Ψ) := by
  obtain ⟨hv0, ha, hb⟩ := nxigInit_pos hp
  have hν := nxigLaw_prob h hv0 ha hb
  have hpos := pyPrior_pos hpy hn
  have hrows := row8Op_rows (n := n) (w := weight (pyPrior py)) (ν := nxigLaw h) (measurable_lsLike data)
    (fun σ => hpos _ (labelsOf_length σ)) m
  have hsame : ∀ al al' : List ℕ, al.length = n → al'.length = n → SamePart n al al' →
      pyPrior py al = pyPrior py al' := by
    intro al al' h1 h2 h3
    obtain ⟨rfl, p1, p2, p3⟩ := pyInit_ok hpy
    have hst : -1 < a := by linarith
    rw [pyPrior_prod (st := ⟨a, b⟩) hst (by omega) al h1,
      pyPrior_prod (st := ⟨a, b⟩) hst (by omega) al' h2, prodPost_congr _ _ h1 h2 h3]
  have key : ∀ l : List (Fin n), Reads8 E h m
      (neal8SweepMean E (lsLike data) (pyScores pred py) nxigLaw n (l.map Fin.val) g)
      (sweepOp (row8Op (weight (pyPrior py)) (lsLike data) (nxigLaw h) m) l Ψ) := by
    intro l
    induction l with
    | nil => exact hg
    | cons i l ih =>
      refine neal8Row_reads (measurable_lsLike data) hsame hpos hν
        (fun s hs _ i hi s1 y hdet => ?_) ((hrows.sweep_step l).meas Ψ hΨ) ih i
      obtain ⟨rfl, p1, p2, p3⟩ := pyInit_ok hpy
      have hst : -1 < a := by linarith
      exact fits_of_prod (E := E) hs hi hdet hn (κ := (pyD ⟨a, b⟩ n)⁻¹) (A := pyA ⟨a, b⟩)
        (B := pyB ⟨a, b⟩) (inv_pos.mpr (pyD_pos hst n)) (fun k _ => pyA_pos p1 p2 k)
        (fun c => pyB_pos p3 c) (pyPrior_prod hst (by omega)) (fun k h1 => py_fresh pred p1 p2 _ h1)
        fun k c hc => py_exist pred p3 _ _ hc
  have := key (List.finRange n)
  rwa [List.map_coe_finRange_eq_range] at this

/-- The number of blocks after a sweep over five rows. -/
example (E : Env ℝ NxIG UniLS) (pred : NxIG → ℕ → ℝ) : Reads8 E ⟨3, 1, 2, 4⟩ 2
    (neal8SweepMean E (lsLike fun i => (i : ℝ)) (pyScores pred ⟨1, 1 / 2⟩) nxigLaw 5 (List.range 5)
      fun s => observe ⟨0, 1⟩ (fun (σ : Setoid (Fin 5)) _ => (Fintype.card (Quotient σ) : ℝ≥0∞)) s.base)
    (sweepOp (row8Op (weight (pyPrior ⟨1, 1 / 2⟩)) (lsLike fun i => (i : ℝ)) (nxigLaw ⟨3, 1, 2, 4⟩) 2)
      (List.finRange 5) fun z _ => (Fintype.card (Quotient z.1) : ℝ≥0∞)) :=
  c153_row_updates E (.fixed 3 1 2 4) _ (nxigInit_fixed (by norm_num) (by norm_num) (by norm_num))
    (a := 1) (b := 1 / 2) (by norm_num [pyInit]) pred _ (by norm_num) 2 (fun _ => measurable_const)
    (reads8_observable 2 _ fun (σ : Setoid (Fin 5)) _ => (Fintype.card (Quotient σ) : ℝ≥0∞))

/-- **C153, violated.** For any number of rows, at least two, and of auxiliary blocks, at least one: with
the Normal x inverse Gamma hierarchy and a Pitman-Yor process one iteration of Neal8 does not keep the
posterior law of partition and values, whose mass is neither zero nor infinite. -/
theorem c153_violated (hg : NormalGen ζ gen) (hi : GenLaw ω ig invGammaLaw) (p : NxIGPrior) (h : NxIG)
    (hp : nxigInit p = .ok h) {a b : ℝ} {py : PYState} (hpy : pyInit a b = .ok py) (data : ℤ → ℝ)
    (hn : 2 ≤ n) (m : ℕ) (obj : (σ : Setoid (Fin n)) → Quotient σ → Cluster UniNormStats UniLS)
    (hobj : LsPartObjects data obj) :
    partPost (weight (pyPrior py)) (lsLike data) (nxigLaw h) (fun (_ : Setoid (Fin n)) _ => 1) ≠ 0 ∧
    partPost (weight (pyPrior py)) (lsLike data) (nxigLaw h) (fun (_ : Setoid (Fin n)) _ => 1) ≠ ∞ ∧
    ¬ ∀ Φ : Setoid (Fin n) → (Fin n → UniLS) → ℝ≥0∞, MeasP Φ →
      partPost (weight (pyPrior py)) (lsLike data) (nxigLaw h)
          (lsNeal8 (weight (pyPrior py)) h gen ζ ig ω data m obj Φ) =
        partPost (weight (pyPrior py)) (lsLike data) (nxigLaw h) Φ :=
  neal8_ls_core hg hi p h hp data (by omega) _
    (fun σ => pyPrior_pos hpy hn _ (labelsOf_length σ)) m obj hobj

/-- **C153, Dirichlet process, violated.** The same with the Dirichlet process, for the posterior with
total mass one that the row updates of the code aim at (C116). -/
theorem c153_dirichlet_violated (hg : NormalGen ζ gen) (hi : GenLaw ω ig invGammaLaw) (p : NxIGPrior)
    (h : NxIG) (hp : nxigInit p = .ok h) (data : ℤ → ℝ) (hn : 2 ≤ n) (m : ℕ)
    (obj : (σ : Setoid (Fin n)) → Quotient σ → Cluster UniNormStats UniLS)
    (hobj : LsPartObjects data obj) :
    ¬ ∀ Φ : Setoid (Fin n) → (Fin n → UniLS) → ℝ≥0∞, MeasP Φ →
      partPost (weight (dpPrior 1)) (lsLike data) (nxigLaw h)
          (lsNeal8 (weight (dpPrior 1)) h gen ζ ig ω data m obj Φ) =
        partPost (weight (dpPrior 1)) (lsLike data) (nxigLaw h) Φ := by
  have hpy : pyInit 1 0 = .ok ⟨1, 0⟩ := by norm_num [pyInit]
  refine (neal8_ls_core hg hi p h hp data (by omega) _ (fun σ => ?_) m obj hobj).2.2
  rw [weight, dpPrior_eq]
  exact pyPrior_pos hpy hn _ (labelsOf_length σ)

theorem lsPartObjects_exist (data : ℤ → ℝ) (n : ℕ) :
    ∃ obj : (σ : Setoid (Fin n)) → Quotient σ → Cluster UniNormStats UniLS, LsPartObjects data obj := by
  classical
  choose ops obj h1 h2 using run_to_rows data exLs
  refine ⟨fun σ q => obj ((Finset.univ.filter fun i => Quotient.mk σ i = q).image
    fun i : Fin n => (i.val : ℤ)), fun σ q => ⟨⟨exLs, _, h1 _⟩, fun z => ?_⟩⟩
  rw [h2]
  simp only [Finset.mem_image, Finset.mem_filter, Finset.mem_univ, true_and]
  exact exists_congr fun i => and_congr_right fun _ => eq_comm

/-- Five rows, three auxiliary blocks, strength one and discount one half. -/
example : ∃ obj : (σ : Setoid (Fin 5)) → Quotient σ → Cluster UniNormStats UniLS,
    LsPartObjects (fun i => (i : ℝ)) obj ∧ ∃ Φ : Setoid (Fin 5) → (Fin 5 → UniLS) → ℝ≥0∞, MeasP Φ ∧
      partPost (weight (pyPrior ⟨1, 1 / 2⟩)) (lsLike fun i => (i : ℝ)) (nxigLaw ⟨3, 1, 2, 4⟩)
        (lsNeal8 (weight (pyPrior ⟨1, 1 / 2⟩)) ⟨3, 1, 2, 4⟩ (fun z m s => m + s * z) (normalLaw 0 1)
          (fun z a r => z (a, r)) (lawSeeds invGammaLaw) (fun i => (i : ℝ)) 2 obj Φ) ≠
      partPost (weight (pyPrior ⟨1, 1 / 2⟩)) (lsLike fun i => (i : ℝ)) (nxigLaw ⟨3, 1, 2, 4⟩) Φ := by
  obtain ⟨obj, ho⟩ := lsPartObjects_exist (fun i => (i : ℝ)) 5
  have hpy : pyInit 1 (1 / 2) = .ok ⟨1, 1 / 2⟩ := by norm_num [pyInit]
  have h := (c153_violated affine_normalGen invGammaSeeds (.fixed 3 1 2 4) _
    (nxigInit_fixed (by norm_num) (by norm_num) (by norm_num)) hpy (fun i => (i : ℝ)) (by norm_num) 2
    obj ho).2.2
  push Not at h
  exact ⟨obj, ho, h⟩

end Bayesmix.Chain
