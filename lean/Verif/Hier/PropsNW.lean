import Verif.Hier.NWLemmas
import Verif.Hier.PropsLinReg

/-!
# C38, C73, C74: multivariate Normal - Normal Wishart
-/

namespace Bayesmix.Hierarchies

open Real Matrix

variable {P : Type} {d : ℕ}

/-- Valid hyperparameters used in the examples: a non-diagonal scale. -/
noncomputable def exNW : NW 2 :=
  ⟨![1, 0], 1, 3, !![2, 1; 1, 2], (!![2, 1; 1, 2])⁻¹, lltU !![2, 1; 1, 2]⟩

theorem exNW_init : nwInit (.fixed ![1, 0] 1 !![2, 1; 1, 2] 3) = .ok exNW :=
  nwInit_fixed (h := exNW) ⟨by norm_num [exNW], by norm_num [exNW], exPosDef, rfl, rfl⟩

/-- **C38, batch and sequential.** The posterior hyperparameters given all data at once are
those obtained by one datum at a time, each posterior being written to a message and read back
as the next prior. -/
theorem c38_batch_eq_sequential (p : NWPrior d) (h : NW d) (hp : nwInit p = .ok h)
    (ys : List (Fin d → ℝ)) :
    nwSetFromProto (nnwPosterior h ys.length
      ⟨ys.sum, (ys.map (fun y => vecMulVec y y)).sum⟩) =
      ys.foldl (fun h y => nwSetFromProto (nnwPosterior h 1 ⟨y, vecMulVec y y⟩)) h :=
  (nwInvScale_cast_posDef h (nwInit_valid hp) ys).2.1

example (y z : Fin 2 → ℝ) :
    nwSetFromProto (nnwPosterior exNW 2 ⟨y + z, vecMulVec y y + vecMulVec z z⟩) =
      nwSetFromProto (nnwPosterior (nwSetFromProto (nnwPosterior exNW 1 ⟨y, vecMulVec y y⟩)) 1
        ⟨z, vecMulVec z z⟩) := by
  have := c38_batch_eq_sequential _ _ exNW_init [y, z]
  simpa using this

/-- **C38, order.** -/
theorem c38_order_independent (p : NWPrior d) (h : NW d) (hp : nwInit p = .ok h)
    (ys zs : List (Fin d → ℝ)) (hperm : ys.Perm zs) :
    ys.foldl (fun h y => nwSetFromProto (nnwPosterior h 1 ⟨y, vecMulVec y y⟩)) h =
      zs.foldl (fun h y => nwSetFromProto (nnwPosterior h 1 ⟨y, vecMulVec y y⟩)) h := by
  rw [← c38_batch_eq_sequential p h hp, ← c38_batch_eq_sequential p h hp, hperm.length_eq,
    hperm.sum_eq, (hperm.map _).sum_eq]

example (y z : Fin 2 → ℝ) :
    [y, z].foldl (fun h y => nwSetFromProto (nnwPosterior h 1 ⟨y, vecMulVec y y⟩)) exNW =
    [z, y].foldl (fun h y => nwSetFromProto (nnwPosterior h 1 ⟨y, vecMulVec y y⟩)) exNW :=
  c38_order_independent _ _ exNW_init _ _ (List.Perm.swap _ _ _)

theorem multiSums_cluster (data : ℤ → Fin d → ℝ) (c0 c : Cluster (MultiNormStats d) P)
    (ops : List DataOp)
    (hrun : runOps multiNormUpd data (clearAll (multiNormZero d) c0) ops = .ok c) :
    c.stats = multiSums (c.idx.toList.map data) ∧ c.card = (c.idx.toList.map data).length := by
  obtain ⟨h1, h2⟩ := c34_multi_norm data c0 c ops hrun
  have h4 := (c34_cardinality multiNormUpd data (multiNormZero d) c0 c ops hrun).1
  refine ⟨?_, by rw [List.length_map, Finset.length_toList, h4]⟩
  ext j k
  · rw [h1]
    simp only [multiSums, Finset.sum_map_toList, Finset.sum_apply]
  · rw [h2]
    simp only [multiSums, List.map_map, Finset.sum_map_toList, Matrix.sum_apply]
    rfl

/-- **C38, explicit values.** The posterior hyperparameters of a cluster reached by any sequence
of insertions and removals, in terms of its members. -/
theorem c38_posterior_values (p : NWPrior d) (h : NW d) (hp : nwInit p = .ok h)
    (data : ℤ → Fin d → ℝ) (c0 c : Cluster (MultiNormStats d) P) (ops : List DataOp)
    (hrun : runOps multiNormUpd data (clearAll (multiNormZero d) c0) ops = .ok c) (q : NW d)
    (hq : q = nwSetFromProto (nnwPosterior h c.card c.stats)) :
    q.varScaling = h.varScaling + c.idx.card ∧ q.degFree = h.degFree + c.idx.card ∧
    (∀ j, q.varScaling * q.mean j = h.varScaling * h.mean j + ∑ i ∈ c.idx, data i j) ∧
    (∀ j k, q.scaleInv j k + q.varScaling * (q.mean j * q.mean k) =
      h.scaleInv j k + h.varScaling * (h.mean j * h.mean k) +
        ∑ i ∈ c.idx, data i j * data i k) := by
  have hv := nwInit_valid hp
  have hl := hv.scaling
  obtain ⟨h1, h2⟩ := c34_multi_norm data c0 c ops hrun
  have h4 := (c34_cardinality multiNormUpd data (multiNormZero d) c0 c ops hrun).1
  rcases eq_or_ne c.card 0 with h0 | h0
  · have he : c.idx = ∅ := Finset.card_eq_zero.1 (by omega)
    have : q = h := by rw [hq, nnwPosterior, if_pos h0, nwSet_get hv]
    rw [this, he]
    simp
  obtain ⟨hs, hn⟩ := multiSums_cluster data c0 c ops hrun
  have hpd := (nwInvScale_cast_posDef h hv (c.idx.toList.map data)).1
  have hcard : (c.card : ℝ) = (c.idx.card : ℝ) := by rw [h4]; push_cast; rfl
  have hcp : (0 : ℝ) ≤ c.card := by rw [hcard]; positivity
  have hn' : (((c.idx.toList.map data).length : ℕ) : ℝ) = c.card := by rw [hn]; push_cast; rfl
  rw [← hs, hn'] at hpd
  rw [nnwPosterior_of_ne h c.card c.stats h0 (by positivity)] at hq
  subst hq
  refine ⟨?_, ?_, ?_, ?_⟩
  · simp only [nwSetFromProto, hcard]
  · simp only [nwSetFromProto, hcard]
  · intro j
    simp only [nwSetFromProto, Pi.smul_apply, Pi.add_apply, smul_eq_mul, ← h1]
    field_simp
  · intro j k
    simp only [nwSetFromProto, ← h2]
    rw [inv_inv_of_posDef hpd]
    simp only [nwInvScale, Matrix.add_apply, Matrix.sub_apply, Matrix.smul_apply, vecMulVec_apply,
      Pi.smul_apply, Pi.add_apply, smul_eq_mul]
    field_simp
    ring

example : ∃ c, runOps multiNormUpd (fun i => ![(i : ℝ), 1])
    (clearAll (multiNormZero 2) (exCluster ⟨1, 2⟩)) exOps = .ok c ∧
    (nwSetFromProto (nnwPosterior exNW c.card c.stats)).degFree = 5 := by
  obtain ⟨c, hc, hi⟩ := exOps_run multiNormUpd (fun i => ![(i : ℝ), 1]) (multiNormZero 2)
    (exCluster ⟨1, 2⟩)
  have := (c38_posterior_values _ _ exNW_init _ _ c exOps hc _ rfl).2.1
  rw [hi] at this
  refine ⟨c, hc, ?_⟩
  rw [this]
  norm_num [exNW]

/-- **C36, Normal Wishart.** The posterior hyperparameters of every reachable cluster pass the
checks of initialization, which would set the same values. -/
theorem c36_nw_valid (p : NWPrior d) (h : NW d) (hp : nwInit p = .ok h)
    (data : ℤ → Fin d → ℝ) (c0 c : Cluster (MultiNormStats d) P) (ops : List DataOp)
    (hrun : runOps multiNormUpd data (clearAll (multiNormZero d) c0) ops = .ok c) (q : NW d)
    (hq : q = nwSetFromProto (nnwPosterior h c.card c.stats)) :
    nwInit (.fixed q.mean q.varScaling q.scale q.degFree) = .ok q := by
  obtain ⟨hs, hn⟩ := multiSums_cluster data c0 c ops hrun
  have := (nwInvScale_cast_posDef h (nwInit_valid hp) (c.idx.toList.map data)).2.2
  rw [hs, hn] at hq
  rw [← hq] at this
  exact nwInit_fixed this

example : ∃ c, runOps multiNormUpd (fun i => ![(i : ℝ), 1])
    (clearAll (multiNormZero 2) (exCluster ⟨1, 2⟩)) exOps = .ok c ∧
    ∃ q, q = nwSetFromProto (nnwPosterior exNW c.card c.stats) ∧
      nwInit (.fixed q.mean q.varScaling q.scale q.degFree) = .ok q := by
  obtain ⟨c, hc, hi⟩ := exOps_run multiNormUpd (fun i => ![(i : ℝ), 1]) (multiNormZero 2)
    (exCluster ⟨1, 2⟩)
  exact ⟨c, hc, _, rfl, c36_nw_valid _ _ exNW_init _ _ c exOps hc _ rfl⟩

/-! ### C73 -/

/-- **C73, one datum.** The Normal density in terms of the precision times the prior is the
library's marginal times the posterior (logarithms), in every dimension. -/
theorem c73_bayes_rule (p : NWPrior d) (h : NW d) (hp : nwInit p = .ok h) (y mu : Fin d → ℝ)
    (W : Matrix (Fin d) (Fin d) ℝ) (hW : W.PosDef) :
    stanMultiNormalPrecLpdf y mu W + nwLpdf h mu W =
      nnwMargLpdf (nwGetProto h) y +
        nwLpdf (nwSetFromProto (nnwPosterior h 1 ⟨y, vecMulVec y y⟩)) mu W :=
  nnw_bayes h (nwInit_valid hp) y mu W hW

example (y mu : Fin 2 → ℝ) :
    stanMultiNormalPrecLpdf y mu !![2, 1; 1, 2] + nwLpdf exNW mu !![2, 1; 1, 2] =
      nnwMargLpdf (nwGetProto exNW) y +
        nwLpdf (nwSetFromProto (nnwPosterior exNW 1 ⟨y, vecMulVec y y⟩)) mu !![2, 1; 1, 2] :=
  c73_bayes_rule _ _ exNW_init y mu _ exPosDef

/-- **C73, clusters.** For a cluster reached by any sequence of insertions and removals,
likelihood of the members times prior is proportional to the density with the posterior
hyperparameters. -/
theorem c73_cluster_bayes (p : NWPrior d) (h : NW d) (hp : nwInit p = .ok h)
    (data : ℤ → Fin d → ℝ) (c0 c : Cluster (MultiNormStats d) P) (ops : List DataOp)
    (hrun : runOps multiNormUpd data (clearAll (multiNormZero d) c0) ops = .ok c) (q : NW d)
    (hq : q = nwSetFromProto (nnwPosterior h c.card c.stats)) :
    ∃ k : ℝ, ∀ (mu : Fin d → ℝ) (W : Matrix (Fin d) (Fin d) ℝ), W.PosDef →
      (∑ i ∈ c.idx, stanMultiNormalPrecLpdf (data i) mu W) + nwLpdf h mu W =
        k + nwLpdf q mu W := by
  have hv := nwInit_valid hp
  obtain ⟨hs, hn⟩ := multiSums_cluster data c0 c ops hrun
  rw [hs, hn, (nwInvScale_cast_posDef h hv _).2.1] at hq
  have key : ∀ (ys : List (Fin d → ℝ)) (h : NW d), NWValid h →
      ∃ k : ℝ, ∀ (mu : Fin d → ℝ) (W : Matrix (Fin d) (Fin d) ℝ), W.PosDef →
        (ys.map (fun y => stanMultiNormalPrecLpdf y mu W)).sum + nwLpdf h mu W =
          k + nwLpdf (ys.foldl (fun h y =>
            nwSetFromProto (nnwPosterior h 1 ⟨y, vecMulVec y y⟩)) h) mu W := by
    intro ys
    induction ys with
    | nil => intro h _; exact ⟨0, fun mu W _ => by simp⟩
    | cons y ys ih =>
      intro h hv
      obtain ⟨k, hk⟩ := ih _ (nnwPosterior_one_valid h hv y)
      refine ⟨k + nnwMargLpdf (nwGetProto h) y, fun mu W hW => ?_⟩
      have h1 := hk mu W hW
      have h2 := nnw_bayes h hv y mu W hW
      rw [List.map_cons, List.sum_cons, List.foldl_cons]
      linarith
  obtain ⟨k, hk⟩ := key _ h hv
  refine ⟨k, fun mu W hW => ?_⟩
  rw [hq, ← hk mu W hW, List.map_map, Finset.sum_map_toList]
  rfl

example : ∃ c, runOps multiNormUpd (fun i => ![(i : ℝ), 1])
    (clearAll (multiNormZero 2) (exCluster ⟨1, 2⟩)) exOps = .ok c ∧
    ∃ k : ℝ, ∀ (mu : Fin 2 → ℝ) (W : Matrix (Fin 2) (Fin 2) ℝ), W.PosDef →
      stanMultiNormalPrecLpdf ![5, 1] mu W + stanMultiNormalPrecLpdf ![9, 1] mu W
        + nwLpdf exNW mu W =
      k + nwLpdf (nwSetFromProto (nnwPosterior exNW c.card c.stats)) mu W := by
  obtain ⟨c, hc, hi⟩ := exOps_run multiNormUpd (fun i => ![(i : ℝ), 1]) (multiNormZero 2)
    (exCluster ⟨1, 2⟩)
  obtain ⟨k, hk⟩ := c73_cluster_bayes _ _ exNW_init _ _ c exOps hc _ rfl
  refine ⟨c, hc, k, fun mu W hW => ?_⟩
  rw [← hk mu W hW, hi]
  norm_num

/-! ### C74 -/

/-- The likelihood of a state with the lower factor is the Normal density. -/
theorem multiNormLpdf_lower (mu y : Fin d → ℝ) (W : Matrix (Fin d) (Fin d) ℝ) (hW : W.PosDef) :
    multiNormLpdf (multiLSFromConstrained mu W) y = stanMultiNormalPrecLpdf y mu W := by
  have h := lltL_spec hW
  unfold multiNormLpdf multiNormalPrecLpdf multiLSFromConstrained stanMultiNormalPrecLpdf
  simp only []
  rw [h.quad, h.logdet]
  norm_num
  ring

/-- The likelihood of a state as `NWPriorModel` writes it. -/
theorem multiNormLpdf_upper (st0 : MultiLS d) (y : Fin d → ℝ) (W : Matrix (Fin d) (Fin d) ℝ)
    (hW : W.PosDef) :
    multiNormLpdf (writePrecToState W st0) y = stanMultiNormalPrecLpdf y st0.mean W
      + (1 / 2) * ((y - st0.mean) ⬝ᵥ (W *ᵥ (y - st0.mean)))
      - (1 / 2) * ((y - st0.mean) ⬝ᵥ (((lltL W)ᵀ * lltL W) *ᵥ (y - st0.mean))) := by
  have h := lltL_spec hW
  unfold multiNormLpdf multiNormalPrecLpdf writePrecToState stanMultiNormalPrecLpdf
  simp only [lltU, transpose_transpose, transpose_apply]
  rw [h.logdet, ← Matrix.mulVec_mulVec, Matrix.dotProduct_mulVec (y - st0.mean) (lltL W)ᵀ,
    ← Matrix.mulVec_transpose, transpose_transpose]
  norm_num
  ring

/-- **C74, what holds.** States read from their constrained representation have the Normal
density as likelihood; states drawn by the Normal-Wishart model have it if (and, as a function
of the datum, only if) the Cholesky factor of the drawn precision commutes with its transpose;
the grid version agrees with the single point version. -/
theorem c74_multi_normal_likelihood_partial (p : NWProto d)
    (wishartRng : ℝ → Matrix (Fin d) (Fin d) ℝ → Matrix (Fin d) (Fin d) ℝ)
    (normalPrecRng : (Fin d → ℝ) → Matrix (Fin d) (Fin d) ℝ → Fin d → ℝ) (st : MultiLS d)
    (hst : st = nwSample p wishartRng normalPrecRng) (hW : st.prec.PosDef) :
    (∀ y, multiNormLpdf (multiLSFromConstrained st.mean st.prec) y =
      stanMultiNormalPrecLpdf y st.mean st.prec) ∧
    ((∀ y, multiNormLpdf st y = stanMultiNormalPrecLpdf y st.mean st.prec) ↔
      ∀ L, IsLLT L st.prec → Lᵀ * L = L * Lᵀ) ∧
    (∀ ys, multiNormalPrecLpdfGrid ys st.mean st.precChol st.precLogdet =
      ys.map (multiNormLpdf st)) := by
  obtain ⟨W, hWd⟩ : ∃ W, W = wishartRng p.degFree p.scale := ⟨_, rfl⟩
  obtain ⟨st0, hs0⟩ : ∃ st0 : MultiLS d, st = writePrecToState W st0 ∧ st.mean = st0.mean :=
    ⟨⟨st.mean, 0, 0, 0⟩, by rw [hst, hWd]; rfl, rfl⟩
  have hprec : st.prec = W := by rw [hs0.1]; rfl
  rw [hprec] at hW ⊢
  have hL := lltL_spec hW
  refine ⟨fun y => multiNormLpdf_lower _ y W hW, ?_, ?_⟩
  · have e : ∀ y, multiNormLpdf st y = stanMultiNormalPrecLpdf y st.mean W
        + (1 / 2) * ((y - st.mean) ⬝ᵥ (W *ᵥ (y - st.mean)))
        - (1 / 2) * ((y - st.mean) ⬝ᵥ (((lltL W)ᵀ * lltL W) *ᵥ (y - st.mean))) := by
      intro y
      rw [hs0.2]
      conv_lhs => rw [hs0.1]
      exact multiNormLpdf_upper st0 y W hW
    constructor
    · intro hall L hL'
      have : L = lltL W := (lltL_eq hL').symm
      subst this
      -- equal quadratic forms of symmetric matrices are equal
      have hq : ∀ v : Fin d → ℝ, v ⬝ᵥ (W *ᵥ v) = v ⬝ᵥ (((lltL W)ᵀ * lltL W) *ᵥ v) := by
        intro v
        have h1 := hall (v + st.mean)
        have h2 := e (v + st.mean)
        rw [add_sub_cancel_right] at h2
        linarith
      have hsW := PosDef.symm_real hW
      have hsL : ((lltL W)ᵀ * lltL W)ᵀ = (lltL W)ᵀ * lltL W := by
        rw [transpose_mul, transpose_transpose]
      rw [hL.2.2]
      ext i j
      have key : ∀ (A : Matrix (Fin d) (Fin d) ℝ) (i j : Fin d), Aᵀ = A →
          2 * A i j = (Pi.single i 1 + Pi.single j 1) ⬝ᵥ
            (A *ᵥ (Pi.single i 1 + Pi.single j 1)) -
            (Pi.single i 1) ⬝ᵥ (A *ᵥ (Pi.single i 1)) -
            (Pi.single j 1) ⬝ᵥ (A *ᵥ (Pi.single j 1)) := by
        intro A i j hA
        have hji : A j i = A i j := by
          conv_lhs => rw [← hA]
          rfl
        simp only [mulVec_add, add_dotProduct, dotProduct_add, mulVec_single_one,
          single_one_dotProduct, Matrix.col_apply]
        rw [hji]
        ring
      have a1 := key W i j hsW
      have a2 := key ((lltL W)ᵀ * lltL W) i j hsL
      rw [hq, hq, hq] at a1
      linarith
    · intro hc y
      rw [e y, hc _ hL, hL.2.2]
      ring
  · intro ys
    unfold multiNormalPrecLpdfGrid
    apply List.map_congr_left
    intro x _
    simp only [multiNormLpdf, multiNormalPrecLpdf]
    rw [← mulVec_transpose]
    norm_num
    ring

/-- A precision with a factor that does not commute with its transpose. -/
theorem exLLT : IsLLT !![1, 0; 1, 1] (!![1, 1; 1, 2] : Matrix (Fin 2) (Fin 2) ℝ) := by
  refine ⟨?_, ?_, ?_⟩
  · intro i j hij
    fin_cases i <;> fin_cases j <;> simp_all
  · intro i
    fin_cases i <;> norm_num
  · ext i j
    fin_cases i <;> fin_cases j <;>
      norm_num [Matrix.mul_apply, Matrix.transpose_apply, Fin.sum_univ_two]

theorem IsLLT.posDef {L M : Matrix (Fin d) (Fin d) ℝ} (h : IsLLT L M) : M.PosDef := by
  have hdet : IsUnit L.det := by
    have ht : L.BlockTriangular OrderDual.toDual := fun i j hij => h.1 i j hij
    rw [Matrix.det_of_isLowerTriangular _ ht, isUnit_iff_ne_zero]
    exact Finset.prod_ne_zero_iff.2 (fun i _ => (h.2.1 i).ne')
  have := Matrix.PosDef.one (n := Fin d) (R := ℝ)
  have h2 := this.mul_mul_conjTranspose_same (B := L)
    (by rw [Matrix.vecMul_injective_iff_isUnit]; exact (Matrix.isUnit_iff_isUnit_det L).2 hdet)
  rw [Matrix.mul_one, Matrix.conjTranspose_eq_transpose_of_trivial, h.2.2] at h2
  exact h2

example : ∃ st : MultiLS 2, st = nwSample (nwGetProto exNW) (fun _ _ => !![1, 1; 1, 2])
    (fun _ _ => 0) ∧ st.prec.PosDef ∧ ∀ y,
      multiNormLpdf (multiLSFromConstrained st.mean st.prec) y =
        stanMultiNormalPrecLpdf y st.mean st.prec :=
  ⟨_, rfl, exLLT.posDef, (c74_multi_normal_likelihood_partial (nwGetProto exNW)
    (fun _ _ => !![1, 1; 1, 2]) (fun _ _ => 0) _ rfl exLLT.posDef).1⟩

/-- **C74, violated.** There is a positive definite precision such that the state the
Normal-Wishart model stores for it does not have the Normal density as likelihood. -/
theorem c74_multi_normal_likelihood_violated :
    ∃ (p : NWProto 2) (W : Matrix (Fin 2) (Fin 2) ℝ) (mu y : Fin 2 → ℝ) (st : MultiLS 2),
      W.PosDef ∧ st = nwSample p (fun _ _ => W) (fun _ _ => mu) ∧ st.mean = mu ∧ st.prec = W ∧
      multiNormLpdf st y ≠ stanMultiNormalPrecLpdf y st.mean st.prec := by
  have hpd := exLLT.posDef
  refine ⟨nwGetProto exNW, !![1, 1; 1, 2], 0, ![1, 0], _, hpd, rfl, rfl, rfl, ?_⟩
  have hup := multiNormLpdf_upper (⟨0, 0, 0, 0⟩ : MultiLS 2) ![1, 0] _ hpd
  show multiNormLpdf (writePrecToState !![1, 1; 1, 2] ⟨0, 0, 0, 0⟩) ![1, 0] ≠
    stanMultiNormalPrecLpdf ![1, 0] 0 !![1, 1; 1, 2]
  rw [hup, lltL_eq exLLT]
  intro h
  have h2 : ((![1, 0] : Fin 2 → ℝ) - 0) ⬝ᵥ ((!![1, 1; 1, 2] : Matrix (Fin 2) (Fin 2) ℝ) *ᵥ
      (![1, 0] - 0)) = 1 := by
    simp [Matrix.mulVec, dotProduct, Fin.sum_univ_two]
  have h3 : ((![1, 0] : Fin 2 → ℝ) - 0) ⬝ᵥ (((!![1, 0; 1, 1])ᵀ * !![1, 0; 1, 1] :
      Matrix (Fin 2) (Fin 2) ℝ) *ᵥ (![1, 0] - 0)) = 2 := by
    rw [← Matrix.mulVec_mulVec, Matrix.dotProduct_mulVec, ← Matrix.mulVec_transpose,
      transpose_transpose, sub_zero]
    have e : (!![1, 0; 1, 1] : Matrix (Fin 2) (Fin 2) ℝ) *ᵥ ![1, 0] = ![1, 1] := by
      ext i
      fin_cases i <;> simp [Matrix.mulVec, dotProduct, Fin.sum_univ_two]
    rw [e]
    simp [dotProduct, Fin.sum_univ_two]
    norm_num
  rw [h2, h3] at h
  linarith

/-- **C52, Student density.** The evaluation of the multivariate Student density on a grid agrees with its
evaluation point by point. -/
theorem c52_student_grid {d : ℕ} (data : List (Fin d → ℝ)) (df : ℝ) (mean : Fin d → ℝ)
    (invscaleChol : Matrix (Fin d) (Fin d) ℝ) (scaleLogdet : ℝ) :
    multiStudentTInvscaleLpdfGrid data df mean invscaleChol scaleLogdet =
      data.map fun x => multiStudentTInvscaleLpdf x df mean invscaleChol scaleLogdet := by
  unfold multiStudentTInvscaleLpdfGrid
  apply List.map_congr_left
  intro x _
  simp only [multiStudentTInvscaleLpdf]
  rw [vecMul_transpose, add_comm _ (1.0 : ℝ)]
  norm_num
  ring

example : (multiStudentTInvscaleLpdfGrid [![0], ![1]] 3 ![0] (1 : Matrix (Fin 1) (Fin 1) ℝ) 0).length = 2 := by
  rw [c52_student_grid]
  rfl

end Bayesmix.Hierarchies
