import Verif.Algo.PropsNeal3Avg
import Verif.Hier.NwLaw

/-!
# C101, C102: Neal3 with the multivariate Normal hierarchy
-/

namespace Bayesmix.Chain
open Bayesmix Cond Gibbs SplitMerge Slice Mixing Hierarchies MeasureTheory ENNReal Matrix

variable {d : ℕ}

/-- The multivariate Normal / Normal-Wishart hierarchy over the data `y`,
`src/hierarchies/nnw_hierarchy.h` 27-97; its draws play no role here. The hyperparameters after an
update are those read back from the message the updater returns. -/
noncomputable def nnwEnv (y : ℕ → Fin d → ℝ) (draw : NW d → ℕ → MultiLS d)
    (hyp : NW d → List (MultiLS d × ℤ) → ℕ → NW d) :
    Env ((Fin d → ℝ) × Matrix (Fin d) (Fin d) ℝ) (NW d) (MultiLS d) where
  kind := .conjugate
  contrib := fun i => (y i, vecMulVec (y i) (y i))
  post := fun h c ss => nwSetFromProto (nnwPosterior h c ⟨ss.1, ss.2⟩)
  sample := draw
  otherDraw := fun θ _ _ _ _ _ => θ
  hyperUpdate := hyp

theorem nnw_bayesRow (y : ℕ → Fin d → ℝ) (draw : NW d → ℕ → MultiLS d)
    (hyp : NW d → List (MultiLS d × ℤ) → ℕ → NW d) {h : NW d} (hv : NWValid h) (i : ℕ) :
    BayesRow (nnwEnv y draw hyp) (fun st i => normalAt st (y i))
      (fun h i => nnwMargLpdf (nwGetProto h) (y i)) nwLaw h i :=
  ⟨nwLaw_prob hv, nwLaw_prob (nnwPosterior_one_valid h hv (y i)),
    fun _ hφ => nwLaw_bayes hv (y i) hφ⟩

theorem nnw_conjugate (y : ℕ → Fin d → ℝ) (draw : NW d → ℕ → MultiLS d)
    (hyp : NW d → List (MultiLS d × ℤ) → ℕ → NW d) :
    Conjugate (nnwEnv y draw hyp) (fun st i => normalAt st (y i))
      (fun h i => nnwMargLpdf (nwGetProto h) (y i)) nwLaw NWValid := by
  refine ⟨fun i => measurable_normalAt (y i), fun h i hv => nnw_bayesRow y draw hyp hv i,
    fun h i hv => nnwPosterior_one_valid h hv (y i), ?_⟩
  intro h hv D i hD hi
  simp only [nnwEnv, Prod.fst_sum, Prod.snd_sum]
  have hl : (D.toList.map y).length = D.card := by simp
  have hs : multiSums (D.toList.map y) = ⟨∑ j ∈ D, y j, ∑ j ∈ D, vecMulVec (y j) (y j)⟩ := by
    unfold multiSums
    rw [List.map_map, Finset.sum_map_toList]
    congr 1
    exact Finset.sum_map_toList D fun j => vecMulVec (y j) (y j)
  have hpd := (nwInvScale_cast_posDef h hv (D.toList.map y)).1
  rw [hl, hs] at hpd
  have := nnwPosterior_succ h hv D.card _ (fun h0 => absurd h0 hD.card_ne_zero) hpd (y i)
  simp only at this
  rw [this, Finset.card_insert_of_notMem hi, Finset.sum_insert hi,
    Finset.sum_insert hi, add_comm (y i), add_comm (vecMulVec (y i) (y i))]
  push_cast
  rfl

/-- **C101, Pitman-Yor process, multivariate Normal hierarchy.** No assumption on the hierarchy is
left: the limit is the posterior under multivariate Normal likelihoods with the drawn mean and
precision, and Normal-Wishart laws of mean and precision. (Neal3 does not evaluate the likelihood of
drawn states, so the wrong factor of C74 does not matter here.) -/
theorem c101_neal3_nnw (y : ℕ → Fin d → ℝ) (draw : NW d → ℕ → MultiLS d)
    {a b : ℝ} {py : PYState} (hpy : pyInit a b = .ok py) (K n : ℕ) (hn : 2 ≤ n) (hK : 0 < K)
    (hKn : K ≤ n) (prior : NWPrior d) (h0 : NW d) (hp : nwInit prior = .ok h0) (θ0 : MultiLS d) :
    ConvergesTo (nnwEnv y draw fun h _ _ => h)
      (pyScores (fun h i => nnwMargLpdf (nwGetProto h) (y i)) py) K n h0 θ0
      (mixPosterior (pyPrior py) (fun st i => stanMultiNormalPrecLpdf (y i) st.mean st.prec)
        (nwLaw h0)) :=
  c101_neal3_pitman_yor _ (fun _ _ _ => rfl) (by simp [nnwEnv]) _ _ nwLaw NWValid
    (nnw_conjugate y draw _) hpy K n hn hK hKn h0 (nwInit_valid hp) θ0

example (y : ℕ → Fin 2 → ℝ) (draw : NW 2 → ℕ → MultiLS 2) (θ0 : MultiLS 2) :
    ConvergesTo (nnwEnv y draw fun h _ _ => h)
      (pyScores (fun h i => nnwMargLpdf (nwGetProto h) (y i)) ⟨1, 1 / 2⟩) 2 3 exNW θ0
      (mixPosterior (pyPrior ⟨1, 1 / 2⟩)
        (fun st i => stanMultiNormalPrecLpdf (y i) st.mean st.prec) (nwLaw exNW)) :=
  c101_neal3_nnw y draw (a := 1) (b := 1 / 2) (by norm_num [pyInit]) 2 3 (by omega) (by omega)
    (by omega) _ exNW exNW_init θ0

/-- **C102, Pitman-Yor process, multivariate Normal hierarchy.** -/
theorem c102_neal3_nnw (y : ℕ → Fin d → ℝ) (draw : NW d → ℕ → MultiLS d)
    {a b : ℝ} {py : PYState} (hpy : pyInit a b = .ok py) (K n : ℕ) (hn : 2 ≤ n) (hK : 0 < K)
    (hKn : K ≤ n) (prior : NWPrior d) (h0 : NW d) (hp : nwInit prior = .ok h0) (θ0 : MultiLS d) :
    Consistent (nnwEnv y draw fun h _ _ => h)
      (pyScores (fun h i => nnwMargLpdf (nwGetProto h) (y i)) py) K n h0 θ0
      (mixPosterior (pyPrior py) (fun st i => stanMultiNormalPrecLpdf (y i) st.mean st.prec)
        (nwLaw h0)) :=
  c102_neal3_pitman_yor _ (fun _ _ _ => rfl) (by simp [nnwEnv]) _ _ nwLaw NWValid
    (nnw_conjugate y draw _) hpy K n hn hK hKn h0 (nwInit_valid hp) θ0

example (y : ℕ → Fin 2 → ℝ) (draw : NW 2 → ℕ → MultiLS 2) (θ0 : MultiLS 2) :
    Consistent (nnwEnv y draw fun h _ _ => h)
      (pyScores (fun h i => nnwMargLpdf (nwGetProto h) (y i)) ⟨1, 1 / 2⟩) 2 3 exNW θ0
      (mixPosterior (pyPrior ⟨1, 1 / 2⟩)
        (fun st i => stanMultiNormalPrecLpdf (y i) st.mean st.prec) (nwLaw exNW)) :=
  c102_neal3_nnw y draw (a := 1) (b := 1 / 2) (by norm_num [pyInit]) 2 3 (by omega) (by omega)
    (by omega) _ exNW exNW_init θ0

/-- **C83, the likelihood part, conjugate hierarchies.** The sum of the log predictive densities that
split-merge uses is the logarithm of the integrated likelihood, in whatever order the rows are
added. -/
theorem c83_conjugate_marginal {G H Θ : Type} [AddCommGroup G] [MeasurableSpace Θ] {E : Env G H Θ}
    {like : Θ → ℕ → ℝ} {pred : H → ℕ → ℝ} {ν : H → Measure Θ} {V : H → Prop}
    (C : Conjugate E like pred ν V) {h : H} (hv : V h) (exist : ℕ → ℕ → ℤ → ℝ)
    (fresh : ℕ → ℕ → ℝ) :
    MargLik E ⟨pred, exist, fresh⟩ h fun D => Real.log (intLik like (ν h) D) :=
  margLik_intLik C hv _ rfl

/-- Multivariate Normal hierarchy. -/
example (y : ℕ → Fin 2 → ℝ) (draw : NW 2 → ℕ → MultiLS 2)
    (hyp : NW 2 → List (MultiLS 2 × ℤ) → ℕ → NW 2) :
    MargLik (nnwEnv y draw hyp) ⟨fun h i => nnwMargLpdf (nwGetProto h) (y i), fun _ _ _ => 0,
      fun _ _ => 0⟩ exNW fun D => Real.log (intLik (fun st i => normalAt st (y i)) (nwLaw exNW) D) :=
  c83_conjugate_marginal (nnw_conjugate y draw hyp) (nwInit_valid exNW_init) _ _

end Bayesmix.Chain
