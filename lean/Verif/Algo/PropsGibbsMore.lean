import Verif.Algo.PropsGibbsNeal2
import Verif.Hier.GaussLaw
import Verif.Hier.PropsLinReg

/-!
# C93, C94: mixtures of finite mixtures, and the linear regression
-/

namespace Bayesmix.Gibbs
open Bayesmix.SplitMerge Bayesmix.Mixing Bayesmix.Hierarchies MeasureTheory ENNReal

variable {G H Θ : Type} [AddCommGroup G] [MeasurableSpace Θ]

/-- Prior probability of the labels, up to a factor, under a mixture of finite mixtures: `V(k)` for
the number of clusters, a rising factorial of `γ` for each cluster. -/
noncomputable def mfmPrior (γ : ℝ) (V : ℕ → ℝ) (al : List ℕ) : ℝ :=
  V al.toFinset.card * ∏ c ∈ al.toFinset, ∏ j ∈ Finset.range (al.count c), (γ + j)

theorem mfmPrior_prod {γ : ℝ} {V : ℕ → ℝ} {n : ℕ} (al : List ℕ) (hl : al.length = n) :
    mfmPrior γ V al = 1 * prodPost V (sizeW fun c => ∏ j ∈ Finset.range c, (γ + j)) al := by
  rw [mfmPrior, prodPost, one_mul]
  congr 1
  refine Finset.prod_congr rfl fun c _ => ?_
  rw [sizeW, count_eq_card]

theorem mfm_step (pred : H → ℕ → ℝ) {γ lam C : ℝ} (hγ : 0 < γ) (hl : 0 < lam) {coef : ℕ → ℕ → ℝ}
    (hcoef : IsCoef γ lam C coef) {n k : ℕ} {st : MFMState} (hst : MFMRun coef γ (n - 1) st)
    (hn : 2 ≤ n) (hk1 : 1 ≤ k) (hk : k < n - 1) :
    (coef (k + 1) n * ∏ j ∈ Finset.range 1, (γ + j) =
      coef k n * Real.exp ((mfmScores pred coef st).fresh (n - 1) k)) ∧
    ∀ c : ℕ, 1 ≤ c → ∏ j ∈ Finset.range (c + 1), (γ + j) =
      (∏ j ∈ Finset.range c, (γ + j)) *
        Real.exp ((mfmScores pred coef st).exist (n - 1) k c) := by
  obtain ⟨hg, htab⟩ := hst.inv
  obtain ⟨s₁, s₂, g1, g2, g3, -⟩ := getV_two htab (show k + 1 ≤ n - 1 by omega)
  have hn1 : n - 1 + 1 = n := by omega
  rw [hn1] at g1 g2
  have hV : ∀ t, 1 ≤ t → 0 < coef t n := fun t ht => hcoef.pos hγ hl ht (by omega)
  constructor
  · have v1 := hV k hk1
    have v2 := hV (k + 1) (by omega)
    have hp : 0 < coef (k + 1) n / coef k n * γ := by positivity
    have e : (mfmScores pred coef st).fresh (n - 1) k =
        Real.log (coef (k + 1) n / coef k n * γ) := by
      simp only [mfmScores, mfmLogMassNew, g1, ok_bind, g2, g3, hg, if_true]
      rw [stdLog, if_neg hp.ne', EReal.toReal_coe]
    rw [e, Real.exp_log hp]
    simp only [Finset.prod_range_one, Nat.cast_zero, add_zero]
    field_simp
  · intro c hc
    have hp : 0 < (c : ℝ) + γ := by positivity
    have e : (mfmScores pred coef st).exist (n - 1) k c = Real.log (c + γ) := by
      simp only [mfmScores, mfmLogMassExisting, g1, ok_bind, g2, g3, hg, if_true, Int.toNat_natCast]
      rw [stdLog, if_neg hp.ne', EReal.toReal_coe]
    rw [e, Real.exp_log hp, Finset.prod_range_succ, add_comm]

/-- **C93, mixture of finite mixtures.** In every reachable state in which two rows other than `i`
share a cluster, the update of Neal8 is reversible for the joint density whose coefficients are the
ones the code computes. Missing: states in which all other rows are alone, where the code reads out
of bounds, and the exact coefficients (C28). -/
theorem c93_neal8_finite_mixture_partial (E : Env G H Θ) (like : Θ → ℕ → ℝ)
    (hlike : ∀ i, Measurable fun θ => like θ i) (ν : H → Measure Θ)
    [∀ h, IsProbabilityMeasure (ν h)] (pred : H → ℕ → ℝ) {γ lam C : ℝ} (hγ : 0 < γ) (hl : 0 < lam)
    {coef : ℕ → ℕ → ℝ} (hcoef : IsCoef γ lam C coef) (K n m : ℕ) {st : MFMState}
    (hst : MFMRun coef γ (n - 1) st) (hn : 2 ≤ n) (hK : 0 < K) (hKn : K ≤ n) (h0 : H) (θ0 : Θ)
    (i : ℕ) (hi : i < n) (s : Alg8 G H Θ) (hs : Reaches8 E K n (m + 1) h0 θ0 i s) (x y : ℕ)
    (hx : x < n) (hy : y < n) (hxi : x ≠ i) (hyi : y ≠ i) (hxy : x ≠ y)
    (htog : together s.base.alloc x y) :
    ∃ s1 pl, Neal8Balanced E like (mfmScores pred coef st) n m s.base i (ν s.base.hyp)
      (mfmPrior γ fun k => coef k n) s1 pl := by
  obtain ⟨hs, -⟩ := reaches8_ok (Nat.succ_pos m) hK hKn hi hs
  obtain ⟨s1, pl, hR, -, htk, hall⟩ := neal8_balanced E (mfmScores pred coef st) hn hs hi m (hlike i)
    (ν s.base.hyp)
  obtain ⟨t1, o, hdet, hR', -, -, hd, -⟩ := detach_place (canSave_false E) hs hi
  obtain ⟨o', sing', hdet', -⟩ := htk
  rw [hdet] at hdet'
  have et : t1 = s1 := (Prod.mk.inj (Except.ok.inj hdet')).1
  subst et
  have hKlt : t1.clus.length < n - 1 := reduced_collision hR hx hy hxi hyi hxy
    ((hd.co x (by simp [hx, hxi]) y (by simp [hy, hyi])).mpr htog)
  obtain ⟨e1, e2⟩ := mfm_step pred hγ hl hcoef hst hn (hR.pos hn) hKlt
  exact ⟨t1, pl, hall _ 1 (fun k => coef k n) (fun c => ∏ j ∈ Finset.range c, (γ + j)) one_pos
    (hcoef.pos hγ hl (hR.pos hn) (by omega))
    (fun c => Finset.prod_pos fun j _ => by positivity) mfmPrior_prod (fun _ => e1) e2⟩

theorem together_example {E : Env G H Θ} {s : Alg G H Θ} (hs : MarginalOk E.contrib 3 s)
    (hlen : s.clus.length = 1) : together s.alloc 1 2 := by
  obtain ⟨a, ha, hal⟩ := hs.cons.on.labelled 1 (by simp)
  obtain ⟨b, hb, hbl⟩ := hs.cons.on.labelled 2 (by simp)
  have : a = b := by omega
  rw [together, ha, hb, this]

/-- Non-vacuity: three rows, all in one cluster at the start. -/
example (zi : InitNoise) (u : Hier ℝ ℝ ℝ) (hu : u.saved = false) (y : ℕ → ℝ) :
    ∃ s coef s1 pl, IsCoef 1 1 0 coef ∧ Reaches8 toyVals 1 3 2 0 0 0 s ∧
      Neal8Balanced toyVals (fun θ i => -(θ - y i) ^ 2 / 2)
        (mfmScores (fun _ _ => 0) coef ⟨1, none⟩) 3 1 s.base 0
        (volume.restrict (Set.Icc (0 : ℝ) 1)) (mfmPrior 1 fun k => coef k 3) s1 pl := by
  obtain ⟨coef, hcoef, -⟩ := c28_coefficients_exist (γ := 1) (lam := 1) one_pos one_pos 0
  obtain ⟨s, e, hs, hlen, -⟩ := initAlloc_ok (E := toyVals) (upd := false) (K := 1) (n := 3)
    (h0 := 0) (θ0 := 0) zi (o := u) (canSave_false _) (by omega) (by omega)
    (by simp [Hier.CacheOk, hu])
  have hr : Reaches8 toyVals 1 3 2 0 0 0 ⟨s, [u, u]⟩ :=
    ⟨zi, u, s, [u, u], ⟨s, [u, u]⟩, [], fun _ => (0, 0), fun _ _ => 0, hu, e, rfl, rfl, rfl⟩
  obtain ⟨s1, pl, h⟩ := c93_neal8_finite_mixture_partial toyVals (fun θ i => -(θ - y i) ^ 2 / 2)
    (fun i => by fun_prop) (fun _ => volume.restrict (Set.Icc (0 : ℝ) 1)) (fun _ _ => 0)
    (γ := 1) (lam := 1) (C := 0) one_pos one_pos hcoef 1 3 1 (st := ⟨1, none⟩) MFMRun.fresh
    (by omega) (by omega) (by omega) 0 0 0 (by omega) _ hr 1 2 (by omega) (by omega) (by omega)
    (by omega) (by omega) (together_example hs hlen)
  exact ⟨_, coef, s1, pl, hcoef, hr, h⟩

/-- **C94, mixture of finite mixtures.** As for Neal8. -/
theorem c94_neal2_finite_mixture_partial (E : Env G H Θ) (like : Θ → ℕ → ℝ)
    (hlike : ∀ i, Measurable fun θ => like θ i) (ν : H → Measure Θ)
    (pred : H → ℕ → ℝ) (hk : E.kind ≠ .other) {γ lam C : ℝ} (hγ : 0 < γ) (hl : 0 < lam)
    {coef : ℕ → ℕ → ℝ} (hcoef : IsCoef γ lam C coef) (K n : ℕ) {st : MFMState}
    (hst : MFMRun coef γ (n - 1) st) (hn : 2 ≤ n) (hK : 0 < K) (hKn : K ≤ n)
    (h0 : H) (θ0 : Θ) (i : ℕ) (hi : i < n) (s : Alg G H Θ) (hs : Reaches2 E K n h0 θ0 i s)
    (hbayes : BayesRow E like pred ν s.hyp i) (x y : ℕ)
    (hx : x < n) (hy : y < n) (hxi : x ≠ i) (hyi : y ≠ i) (hxy : x ≠ y)
    (htog : together s.alloc x y) :
    ∃ s1 pl p, Neal2Conditional E like (mfmScores pred coef st) n s i ν
      (mfmPrior γ fun k => coef k n) s1 pl p := by
  have hs := (reaches2_ok hn hK hKn hi hs (P := fun _ => True) trivial fun _ _ _ _ => trivial).1
  obtain ⟨s1, pl, p, hR, -, ⟨o', sing', hdet', -⟩, -, -, -, hall⟩ :=
    neal2_core E (mfmScores pred coef st) hn hk hs hi (hlike i) ν hbayes
  obtain ⟨t1, o, hdet, -, -, -, hd, -⟩ := detach_place (canSave_false E) hs hi
  rw [hdet] at hdet'
  have et : t1 = s1 := (Prod.mk.inj (Except.ok.inj hdet')).1
  subst et
  have hKlt : t1.clus.length < n - 1 := reduced_collision hR hx hy hxi hyi hxy
    ((hd.co x (by simp [hx, hxi]) y (by simp [hy, hyi])).mpr htog)
  obtain ⟨e1, e2⟩ := mfm_step pred hγ hl hcoef hst hn (hR.pos hn) hKlt
  exact ⟨t1, pl, p, hall _ 1 (fun k => coef k n) (fun c => ∏ j ∈ Finset.range c, (γ + j)) one_pos
    (hcoef.pos hγ hl (hR.pos hn) (by omega))
    (fun c => Finset.prod_pos fun j _ => by positivity) mfmPrior_prod (fun _ => e1) e2⟩

/-- Non-vacuity: the normal model, three rows, all in one cluster at the start. -/
example (y : ℕ → ℝ) (draw : NIG → ℕ → UniLS) (θ0 : UniLS) (zi : InitNoise)
    (o : Hier (ℝ × ℝ) NIG UniLS) (ho : o.saved = false) :
    ∃ s coef s1 pl p, IsCoef 1 1 0 coef ∧
      Reaches2 (nnigEnv y draw (fun h _ _ => h)) 1 3 ⟨0, 1, 2, 1⟩ θ0 0 s ∧
      Neal2Conditional (nnigEnv y draw (fun h _ _ => h)) (fun st i => uniNormLpdf st (y i))
        (mfmScores (fun h i => nnigMargLpdf h (y i)) coef ⟨1, none⟩) 3 s 0 nigLaw
        (mfmPrior 1 fun k => coef k 3) s1 pl p := by
  obtain ⟨coef, hcoef, -⟩ := c28_coefficients_exist (γ := 1) (lam := 1) one_pos one_pos 0
  obtain ⟨s, e, hs, hlen, -⟩ := initAlloc_ok (E := nnigEnv y draw (fun h _ _ => h)) (upd := false)
    (K := 1) (n := 3) (h0 := ⟨0, 1, 2, 1⟩) (θ0 := θ0) zi (o := o) (canSave_false _) (by omega)
    (by omega) (by simp [Hier.CacheOk, ho])
  have hr : Reaches2 (nnigEnv y draw (fun h _ _ => h)) 1 3 ⟨0, 1, 2, 1⟩ θ0 0 s :=
    ⟨zi, o, s, s, [], fun _ => (0, 0), ho, e, rfl, rfl⟩
  have hv := (reaches2_ok (by omega) (by omega) (by omega) (by omega) hr (P := NigValid)
    ⟨by norm_num, by norm_num, by norm_num⟩ fun _ _ _ h => h).2
  obtain ⟨s1, pl, p, h⟩ := c94_neal2_finite_mixture_partial (nnigEnv y draw fun h _ _ => h) _
    (fun i => measurable_uniNormLpdf (y i)) nigLaw _ (by simp [nnigEnv]) (γ := 1) (lam := 1)
    (C := 0) one_pos one_pos hcoef 1 3 (st := ⟨1, none⟩) MFMRun.fresh (by omega) (by omega)
    (by omega) _ θ0 0 (by omega) s hr (nnig_bayesRow y draw (fun h _ _ => h) hv 0) 1 2 (by omega)
    (by omega) (by omega) (by omega) (by omega) (together_example hs hlen)
  exact ⟨s, coef, s1, pl, p, hcoef, hr, h⟩

/-- The linear regression hierarchy over responses `y` with covariates `x`; summary statistics of
`src/hierarchies/likelihoods/uni_lin_reg_likelihood.cc` 18-30, posterior of
`src/hierarchies/updaters/mnig_updater.cc` 3-44. -/
noncomputable def linRegEnv {d : ℕ} (y : ℕ → ℝ) (x : ℕ → Fin d → ℝ)
    (draw : MNIG d → ℕ → UniLinRegLS d)
    (hyp : MNIG d → List (UniLinRegLS d × ℤ) → ℕ → MNIG d) :
    Env (ℝ × Matrix (Fin d) (Fin d) ℝ × (Fin d → ℝ)) (MNIG d) (UniLinRegLS d) where
  kind := .conjugate
  contrib := fun i => (y i ^ 2, Matrix.vecMulVec (x i) (x i), y i • x i)
  post := fun h c ss => mnigPosterior h c ⟨ss.1, ss.2.1, ss.2.2⟩
  sample := draw
  otherDraw := fun θ _ _ _ _ _ => θ
  hyperUpdate := hyp

/-- Hyperparameters that `MNIGPriorModel::initialize_hypers` accepts. -/
def MnigValid {d : ℕ} (h : MNIG d) : Prop := h.varScaling.PosDef ∧ 0 < h.shape ∧ 0 < h.scale

theorem linReg_bayesRow {d : ℕ} (y : ℕ → ℝ) (x : ℕ → Fin d → ℝ)
    (draw : MNIG d → ℕ → UniLinRegLS d)
    (hyp : MNIG d → List (UniLinRegLS d × ℤ) → ℕ → MNIG d) {h : MNIG d} (hv : MnigValid h) (i : ℕ) :
    BayesRow (linRegEnv y x draw hyp) (fun st i => linRegLpdf st (y i) (x i))
      (fun h i => linRegMargLpdf h (y i) (x i)) mnigLaw h i := by
  refine ⟨mnigLaw_prob h hv.1 hv.2.1 hv.2.2, ?_,
    fun φ hφ => mnigLaw_bayes h hv.1 hv.2.1 hv.2.2 (y i) (x i) hφ⟩
  obtain ⟨p1, p2, p3⟩ := mnigPosterior_one_pos h hv.1 hv.2.1 hv.2.2 (y i) (x i)
  exact mnigLaw_prob _ p1 p2 p3

/-- **C94, linear regression.** Neal2 with the linear regression hierarchy and Pitman-Yor mixing,
from every accepted choice of hyperparameters, with no assumption on the hierarchy. -/
theorem c94_neal2_linreg {d : ℕ} (y : ℕ → ℝ) (x : ℕ → Fin d → ℝ) (draw : MNIG d → ℕ → UniLinRegLS d)
    (hyp : MNIG d → List (UniLinRegLS d × ℤ) → ℕ → MNIG d)
    (hhyp : ∀ h l r, MnigValid h → MnigValid (hyp h l r))
    (prior : MNIGPrior d) (h0 : MNIG d) (hp : mnigInit prior = .ok h0) {a b : ℝ}
    {py : PYState} (hpy : pyInit a b = .ok py) (K n : ℕ) (hn : 2 ≤ n) (hK : 0 < K) (hKn : K ≤ n)
    (θ0 : UniLinRegLS d) (i : ℕ) (hi : i < n)
    (s : Alg (ℝ × Matrix (Fin d) (Fin d) ℝ × (Fin d → ℝ)) (MNIG d) (UniLinRegLS d))
    (hs : Reaches2 (linRegEnv y x draw hyp) K n h0 θ0 i s) :
    ∃ s1 pl p, Neal2Conditional (linRegEnv y x draw hyp) (fun st i => linRegLpdf st (y i) (x i))
      (pyScores (fun h i => linRegMargLpdf h (y i) (x i)) py) n s i mnigLaw (pyPrior py) s1 pl p := by
  have hv := (reaches2_ok hn hK hKn hi hs (P := MnigValid) (mnigInit_pos hp) hhyp).2
  exact c94_neal2_pitman_yor _ _
    (fun i => (measurable_linRegLpdf (x i)).comp (measurable_const.prodMk measurable_id)) _ _
    (by simp [linRegEnv]) hpy K n hn hK hKn h0 θ0 i hi s hs (linReg_bayesRow y x draw hyp hv i)

/-- Non-vacuity: two covariates, three rows, two clusters at the start. -/
example (y : ℕ → ℝ) (x : ℕ → Fin 2 → ℝ) (draw : MNIG 2 → ℕ → UniLinRegLS 2) (θ0 : UniLinRegLS 2)
    (zi : InitNoise)
    (o : Hier (ℝ × Matrix (Fin 2) (Fin 2) ℝ × (Fin 2 → ℝ)) (MNIG 2) (UniLinRegLS 2))
    (ho : o.saved = false) :
    ∃ s s1 pl p, Reaches2 (linRegEnv y x draw (fun h _ _ => h)) 2 3 exMNIG θ0 0 s ∧
      Neal2Conditional (linRegEnv y x draw (fun h _ _ => h))
        (fun st i => linRegLpdf st (y i) (x i))
        (pyScores (fun h i => linRegMargLpdf h (y i) (x i)) ⟨1, 1 / 2⟩) 3 s 0 mnigLaw
        (pyPrior ⟨1, 1 / 2⟩) s1 pl p := by
  obtain ⟨s, e, hs, -⟩ := initAlloc_ok (E := linRegEnv y x draw (fun h _ _ => h)) (upd := false)
    (K := 2) (n := 3) (h0 := exMNIG) (θ0 := θ0) zi (o := o) (canSave_false _) (by omega)
    (by omega) (by simp [Hier.CacheOk, ho])
  have hr : Reaches2 (linRegEnv y x draw (fun h _ _ => h)) 2 3 exMNIG θ0 0 s :=
    ⟨zi, o, s, s, [], fun _ => (0, 0), ho, e, rfl, rfl⟩
  obtain ⟨s1, pl, p, h⟩ := c94_neal2_linreg y x draw (fun h _ _ => h) (fun _ _ _ h => h)
    _ _ exMNIG_valid (a := 1)
    (b := 1 / 2) (py := ⟨1, 1 / 2⟩) (by norm_num [pyInit]) 2 3 (by omega) (by omega) (by omega) θ0 0
    (by omega) s hr
  exact ⟨s, s1, pl, p, hr, h⟩

end Bayesmix.Gibbs
