import Verif.Hier.MatLemmas
import Verif.Hier.PropsStats

/-!
# C37: linear regression
-/

namespace Bayesmix.Hierarchies

open Real Matrix

variable {P : Type} {d : ℕ}

/-- Valid hyperparameters used in the examples: a non-diagonal scaling. -/
noncomputable def exMNIG : MNIG 2 := ⟨![1, 0], !![2, 1; 1, 2], 2, 3⟩

theorem exPosDef : (!![2, 1; 1, 2] : Matrix (Fin 2) (Fin 2) ℝ).PosDef := by
  have e : (!![2, 1; 1, 2] : Matrix (Fin 2) (Fin 2) ℝ) = vecMulVec ![1, 1] ![1, 1] + 1 := by
    ext i j
    fin_cases i <;> fin_cases j <;> norm_num [vecMulVec_apply, Matrix.one_apply]
  rw [e]
  exact posDef_add_vecMulVec Matrix.PosDef.one _

theorem exMNIG_valid : mnigInit (.fixed exMNIG.mean exMNIG.varScaling exMNIG.shape exMNIG.scale) =
    .ok exMNIG :=
  mnigInit_fixed exPosDef (by norm_num [exMNIG]) (by norm_num [exMNIG])

/-- **C37, one datum.** Likelihood times prior is marginal times posterior (logarithms), for
all hyperparameters that initialization accepts, in every dimension. -/
theorem c37_bayes_rule (p : MNIGPrior d) (h : MNIG d) (hp : mnigInit p = .ok h) (y : ℝ)
    (x : Fin d → ℝ) (st : UniLinRegLS d) (hv : 0 < st.var) :
    linRegLpdf st y x + mnigLpdf h st =
      linRegMargLpdf h y x +
        mnigLpdf (mnigPosterior h 1 ⟨y ^ 2, vecMulVec x x, y • x⟩) st := by
  obtain ⟨hl, ha, hb⟩ := mnigInit_pos hp
  exact mnig_bayes h hl ha hb y x st hv

example : linRegLpdf ⟨![0, 1], 2⟩ 5 ![1, 3] + mnigLpdf exMNIG ⟨![0, 1], 2⟩ =
    linRegMargLpdf exMNIG 5 ![1, 3] + mnigLpdf (mnigPosterior exMNIG 1
      ⟨5 ^ 2, vecMulVec ![1, 3] ![1, 3], (5 : ℝ) • ![1, 3]⟩) ⟨![0, 1], 2⟩ :=
  c37_bayes_rule _ _ exMNIG_valid 5 ![1, 3] _ (by norm_num)

/-- **C37, batch and sequential.** -/
theorem c37_batch_eq_sequential (p : MNIGPrior d) (h : MNIG d) (hp : mnigInit p = .ok h)
    (ys : List (ℝ × (Fin d → ℝ))) :
    mnigPosterior h ys.length
      ⟨(ys.map (fun yx => yx.1 ^ 2)).sum, (ys.map (fun yx => vecMulVec yx.2 yx.2)).sum,
        (ys.map (fun yx => yx.1 • yx.2)).sum⟩ =
      ys.foldl (fun h yx =>
        mnigPosterior h 1 ⟨yx.1 ^ 2, vecMulVec yx.2 yx.2, yx.1 • yx.2⟩) h :=
  mnig_batch_eq_foldl h (mnigInit_pos hp).1 ys

example (y z : ℝ) (x w : Fin 2 → ℝ) :
    mnigPosterior exMNIG 2 ⟨y ^ 2 + z ^ 2, vecMulVec x x + vecMulVec w w, y • x + z • w⟩ =
      mnigPosterior (mnigPosterior exMNIG 1 ⟨y ^ 2, vecMulVec x x, y • x⟩) 1
        ⟨z ^ 2, vecMulVec w w, z • w⟩ := by
  have := c37_batch_eq_sequential _ _ exMNIG_valid [(y, x), (z, w)]
  simpa using this

/-- **C37, order.** -/
theorem c37_order_independent (p : MNIGPrior d) (h : MNIG d) (hp : mnigInit p = .ok h)
    (ys zs : List (ℝ × (Fin d → ℝ))) (hperm : ys.Perm zs) :
    ys.foldl (fun h yx =>
        mnigPosterior h 1 ⟨yx.1 ^ 2, vecMulVec yx.2 yx.2, yx.1 • yx.2⟩) h =
      zs.foldl (fun h yx =>
        mnigPosterior h 1 ⟨yx.1 ^ 2, vecMulVec yx.2 yx.2, yx.1 • yx.2⟩) h := by
  rw [← c37_batch_eq_sequential p h hp, ← c37_batch_eq_sequential p h hp, hperm.length_eq,
    (hperm.map _).sum_eq, (hperm.map _).sum_eq, (hperm.map _).sum_eq]

example (y z : ℝ) (x w : Fin 2 → ℝ) :
    [(y, x), (z, w)].foldl (fun h yx =>
        mnigPosterior h 1 ⟨yx.1 ^ 2, vecMulVec yx.2 yx.2, yx.1 • yx.2⟩) exMNIG =
    [(z, w), (y, x)].foldl (fun h yx =>
        mnigPosterior h 1 ⟨yx.1 ^ 2, vecMulVec yx.2 yx.2, yx.1 • yx.2⟩) exMNIG :=
  c37_order_independent _ _ exMNIG_valid _ _ (List.Perm.swap _ _ _)

theorem mnig_cluster_eq_foldl (h : MNIG d) (hl : h.varScaling.PosDef)
    (data : ℤ → ℝ × (Fin d → ℝ)) (c0 c : Cluster (LinRegStats d) P) (ops : List DataOp)
    (hrun : runOps linRegUpd data (clearAll (linRegZero d) c0) ops = .ok c) :
    mnigPosterior h c.card c.stats =
      (c.idx.toList.map data).foldl (fun h yx =>
        mnigPosterior h 1 ⟨yx.1 ^ 2, vecMulVec yx.2 yx.2, yx.1 • yx.2⟩) h := by
  obtain ⟨h1, h2, h3⟩ := c34_lin_reg data c0 c ops hrun
  have h4 := (c34_cardinality linRegUpd data (linRegZero d) c0 c ops hrun).1
  rw [← mnig_batch_eq_foldl h hl, List.length_map, Finset.length_toList, h4]
  congr 1
  ext j k
  · rw [h1]
    simp only [linRegSums, List.map_map, Finset.sum_map_toList]
    rfl
  · rw [h2]
    simp only [linRegSums, List.map_map, Finset.sum_map_toList, Matrix.sum_apply]
    rfl
  · rw [h3]
    simp only [linRegSums, List.map_map, Finset.sum_map_toList, Finset.sum_apply]
    rfl

/-- **C37, clusters.** For a cluster reached by any sequence of insertions and removals,
likelihood of the members times prior is proportional to the density with the posterior
hyperparameters, and those hyperparameters pass the checks of initialization (C36). -/
theorem c37_cluster_bayes (p : MNIGPrior d) (h : MNIG d) (hp : mnigInit p = .ok h)
    (data : ℤ → ℝ × (Fin d → ℝ)) (c0 c : Cluster (LinRegStats d) P) (ops : List DataOp)
    (hrun : runOps linRegUpd data (clearAll (linRegZero d) c0) ops = .ok c) (q : MNIG d)
    (hq : q = mnigPosterior h c.card c.stats) :
    (∃ k : ℝ, ∀ st : UniLinRegLS d, 0 < st.var →
      (∑ i ∈ c.idx, linRegLpdf st (data i).1 (data i).2) + mnigLpdf h st = k + mnigLpdf q st) ∧
    mnigInit (.fixed q.mean q.varScaling q.shape q.scale) = .ok q := by
  obtain ⟨hl, ha, hb⟩ := mnigInit_pos hp
  rw [mnig_cluster_eq_foldl h hl data c0 c ops hrun] at hq
  constructor
  · have key : ∀ (ys : List (ℝ × (Fin d → ℝ))) (h : MNIG d), h.varScaling.PosDef → 0 < h.shape →
        0 < h.scale →
        ∃ k : ℝ, ∀ st : UniLinRegLS d, 0 < st.var →
          (ys.map (fun yx => linRegLpdf st yx.1 yx.2)).sum + mnigLpdf h st =
            k + mnigLpdf (ys.foldl (fun h yx =>
              mnigPosterior h 1 ⟨yx.1 ^ 2, vecMulVec yx.2 yx.2, yx.1 • yx.2⟩) h) st := by
      intro ys
      induction ys with
      | nil => intro h _ _ _; exact ⟨0, fun st _ => by simp⟩
      | cons y ys ih =>
        intro h hl ha hb
        obtain ⟨a', b', c'⟩ := mnigPosterior_one_pos h hl ha hb y.1 y.2
        obtain ⟨k, hk⟩ := ih _ a' b' c'
        refine ⟨k + linRegMargLpdf h y.1 y.2, fun st hv => ?_⟩
        have h1 := hk st hv
        have h2 := mnig_bayes h hl ha hb y.1 y.2 st hv
        rw [List.map_cons, List.sum_cons, List.foldl_cons]
        linarith
    obtain ⟨k, hk⟩ := key (c.idx.toList.map data) h hl ha hb
    refine ⟨k, fun st hv => ?_⟩
    rw [hq, ← hk st hv, List.map_map, Finset.sum_map_toList]
    rfl
  · obtain ⟨a', b', d'⟩ := foldl_mnig_pos _ h q hl ha hb hq
    exact mnigInit_fixed a' b' d'

example : ∃ c, runOps linRegUpd (fun i => ((i : ℝ), ![(2 : ℝ), i]))
    (clearAll (linRegZero 2) (exCluster ⟨1, 2, 3⟩)) exOps = .ok c ∧
    ∃ k : ℝ, ∀ st : UniLinRegLS 2, 0 < st.var →
      linRegLpdf st 5 ![2, 5] + linRegLpdf st 9 ![2, 9] + mnigLpdf exMNIG st =
        k + mnigLpdf (mnigPosterior exMNIG c.card c.stats) st := by
  obtain ⟨c, hc, hi⟩ := exOps_run linRegUpd (fun i => ((i : ℝ), ![(2 : ℝ), i])) (linRegZero 2)
    (exCluster ⟨1, 2, 3⟩)
  obtain ⟨k, hk⟩ := (c37_cluster_bayes _ _ exMNIG_valid _ _ c exOps hc _ rfl).1
  refine ⟨c, hc, k, fun st hv => ?_⟩
  rw [← hk st hv, hi]
  norm_num

end Bayesmix.Hierarchies
