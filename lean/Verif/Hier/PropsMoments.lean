import Verif.Hier.MomentLemmas

/-!
# C97: the state of a cluster holds the moments of its likelihood
-/

namespace Bayesmix.Hierarchies
open Real MeasureTheory ENNReal Matrix

variable {d p q : ℕ}

/-- **C97, univariate likelihoods.** `mean` and `var` of the state are mean and variance, also for
the Laplace likelihood, whose scale is `sqrt(var / 2)`. -/
theorem c97_uni (st : UniLS) (hv : 0 < st.var) :
    HasMeanVar (uniNormLpdf st) st.mean st.var ∧ HasMeanVar (laplaceLpdf st) st.mean st.var := by
  refine ⟨normal_meanVar _ _ hv, ?_⟩
  have h := laplace_meanVar st.mean (sqrt (st.var / 2.0)) (sqrt_pos.2 (div_pos hv (by norm_num)))
  rw [sq_sqrt (div_pos hv (by norm_num)).le] at h
  have e : 2 * (st.var / 2.0) = st.var := by norm_num; ring
  rw [e] at h
  exact h

example : HasMeanVar (laplaceLpdf ⟨1, 3⟩) 1 3 := (c97_uni ⟨1, 3⟩ (by norm_num)).2

/-- **C97, linear regression.** -/
theorem c97_linreg (st : UniLinRegLS d) (hv : 0 < st.var) (x : Fin d → ℝ) :
    HasMeanVar (fun y => linRegLpdf st y x) (∑ j, st.regressionCoeffs j * x j) st.var :=
  normal_meanVar _ _ hv

example : HasMeanVar (fun y => linRegLpdf ⟨![1, 2], 3⟩ y ![5, 4]) 13 3 := by
  have := c97_linreg ⟨![1, 2], 3⟩ (by norm_num) ![5, 4]
  rw [Fin.sum_univ_two] at this
  norm_num at this
  exact this

/-- The moments of a multivariate state, whatever its factor. -/
theorem multiNorm_meanCov (st : MultiLS d) (hp : ∀ i, 0 < st.precChol i i)
    (hl : st.precLogdet = 2 * ∑ i, log (st.precChol i i))
    (hdet : st.precChol.det = ∏ i, st.precChol i i) :
    HasMeanCov (multiNormLpdf st) st.mean (st.precChol * st.precCholᵀ)⁻¹ := by
  have hne : st.precCholᵀ.det ≠ 0 := by
    rw [det_transpose, hdet]
    exact Finset.prod_ne_zero_iff.2 fun i _ => (hp i).ne'
  have h := affine_meanCov (multiNormLpdf st) st.mean hne fun y => by
    rw [exp_multiNormLpdf st hp hl hdet, stdLog, exp_sum]
  rwa [transpose_transpose] at h

theorem lltL_det {W : Matrix (Fin d) (Fin d) ℝ} (hW : W.PosDef) :
    (lltL W).det = ∏ i, lltL W i i := by
  have h := lltL_spec hW
  exact Matrix.det_of_isLowerTriangular _ fun i j hij => h.1 i j hij

/-- **C97, multivariate Normal, what holds.** States read from their constrained representation:
mean, and inverse of the precision. Missing: the states drawn by the Normal-Wishart model. -/
theorem c97_multi_norm_partial (m : Fin d → ℝ) (W : Matrix (Fin d) (Fin d) ℝ) (hW : W.PosDef)
    (st : MultiLS d) (hst : st = multiLSFromConstrained m W) :
    HasMeanCov (multiNormLpdf st) st.mean st.prec⁻¹ := by
  subst hst
  have h := lltL_spec hW
  have := multiNorm_meanCov (multiLSFromConstrained m W) (fun i => h.2.1 i) rfl (lltL_det hW)
  have e : (multiLSFromConstrained m W).precChol * (multiLSFromConstrained m W).precCholᵀ = W :=
    h.2.2
  rw [e] at this
  exact this

example : HasMeanCov (multiNormLpdf (multiLSFromConstrained ![1, 3] !![2, 1; 1, 2])) ![1, 3]
    (!![2, 1; 1, 2] : Matrix (Fin 2) (Fin 2) ℝ)⁻¹ :=
  c97_multi_norm_partial _ _ exPosDef _ rfl

/-- **C97, multivariate Normal, drawn states.** The mean is right. The covariance is the inverse of
the product of the factors in the wrong order. -/
theorem c97_drawn_partial (pr : NWProto d)
    (wishartRng : ℝ → Matrix (Fin d) (Fin d) ℝ → Matrix (Fin d) (Fin d) ℝ)
    (normalPrecRng : (Fin d → ℝ) → Matrix (Fin d) (Fin d) ℝ → Fin d → ℝ) (st : MultiLS d)
    (hst : st = nwSample pr wishartRng normalPrecRng) (hW : st.prec.PosDef)
    (L : Matrix (Fin d) (Fin d) ℝ) (hL : IsLLT L st.prec) :
    HasMeanCov (multiNormLpdf st) st.mean (Lᵀ * L)⁻¹ := by
  subst hst
  obtain ⟨W, hWd⟩ : ∃ W, W = wishartRng pr.degFree pr.scale := ⟨_, rfl⟩
  have hW' : W.PosDef := by rw [hWd]; exact hW
  have hL' : IsLLT L W := by rw [hWd]; exact hL
  have hLe := lltL_eq hL'
  have h := lltL_spec hW'
  have := multiNorm_meanCov (nwSample pr wishartRng normalPrecRng)
    (by unfold nwSample; rw [← hWd]; exact fun i => h.2.1 i) rfl
    (by
      unfold nwSample
      rw [← hWd]
      show (lltU W).det = ∏ i, lltU W i i
      simp only [lltU, det_transpose, transpose_apply]
      exact lltL_det hW')
  have e : (nwSample pr wishartRng normalPrecRng).precChol = Lᵀ := by
    unfold nwSample
    rw [← hWd, ← hLe]
    rfl
  rw [e, transpose_transpose] at this
  exact this

/-- **C97, violated.** A drawn state whose likelihood does not have the inverse of its precision as
covariance. -/
theorem c97_multi_norm_violated :
    ∃ (pr : NWProto 2) (W : Matrix (Fin 2) (Fin 2) ℝ) (st : MultiLS 2),
      W.PosDef ∧ st = nwSample pr (fun _ _ => W) (fun _ _ => 0) ∧ st.prec = W ∧
      ¬ HasMeanCov (multiNormLpdf st) st.mean st.prec⁻¹ := by
  have hpd := exLLT.posDef
  refine ⟨nwGetProto exNW, !![1, 1; 1, 2], _, hpd, rfl, rfl, fun h => ?_⟩
  have h2 := c97_drawn_partial (nwGetProto exNW) (fun _ _ => !![1, 1; 1, 2]) (fun _ _ => 0) _ rfl
    hpd !![1, 0; 1, 1] exLLT
  have e := (h.cov 0 0).symm.trans (h2.cov 0 0)
  have i1 : (!![1, 1; 1, 2] : Matrix (Fin 2) (Fin 2) ℝ)⁻¹ = !![2, -1; -1, 1] := by
    refine inv_eq_left_inv ?_
    ext i j
    fin_cases i <;> fin_cases j <;> norm_num [Matrix.mul_apply, Fin.sum_univ_two]
  have i2 : ((!![1, 0; 1, 1] : Matrix (Fin 2) (Fin 2) ℝ)ᵀ * !![1, 0; 1, 1])⁻¹ =
      !![1, -1; -1, 2] := by
    refine inv_eq_left_inv ?_
    ext i j
    fin_cases i <;> fin_cases j <;>
      norm_num [Matrix.mul_apply, Fin.sum_univ_two, transpose_apply]
  have e2 : (!![1, 1; 1, 2] : Matrix (Fin 2) (Fin 2) ℝ)⁻¹ 0 0 =
      (((!![1, 0; 1, 1] : Matrix (Fin 2) (Fin 2) ℝ)ᵀ * !![1, 0; 1, 1])⁻¹ :
        Matrix (Fin 2) (Fin 2) ℝ) 0 0 := e
  rw [i1, i2] at e2
  norm_num at e2

theorem logGauss_meanCov {S : Matrix (Fin p) (Fin p) ℝ} (hS : S.PosDef) (m : Fin p → ℝ) :
    HasMeanCov (fun y => logGauss y m S) m S := by
  have h := lltL_spec hS.inv
  have hdet := lltL_det hS.inv
  have hne : (lltL S⁻¹)ᵀ.det ≠ 0 := by
    rw [det_transpose, hdet]
    exact Finset.prod_ne_zero_iff.2 fun i _ => (h.2.1 i).ne'
  have := affine_meanCov (fun y => logGauss y m S) m hne fun y => by
    rw [logGauss_eq, exp_stanMultiNormalPrecLpdf h, stdLog, exp_sum, det_transpose]
  rw [transpose_transpose, h.2.2, nonsing_inv_nonsing_inv _
    (isUnit_iff_ne_zero.2 hS.det_pos.ne')] at this
  exact this

/-- **C97, factor-analytic likelihood, what holds.** After a state was initialised or read, the
mean is `mu` and the covariance `diag(psi) + Lambda Lambdaᵀ`. Missing: drawn states (C45). -/
theorem c97_fa_partial (st st' : FA p q) (ops : List (FAOp p q)) (op : FAOp p q)
    (hop : (∃ h, op = .init h) ∨ ∃ mu psi eta A, op = .read mu psi eta A)
    (hrun : faRun st (ops ++ [op]) = .ok st') (hpos : ∀ j, 0 < st'.psi j) :
    ∃ f : (Fin p → ℝ) → ℝ, (∀ y, faLpdf st' y = .ok (f y)) ∧
      HasMeanCov f st'.mu (diagonal st'.psi + st'.lambda * st'.lambdaᵀ) :=
  ⟨_, c45_in_sync_partial st st' ops op hop hrun hpos,
    logGauss_meanCov (c59_logdet st'.psi hpos st'.lambda).1 _⟩

example : ∃ st : FA 2 1, faRun (faInitializeState 1 ⟨0, 1, 1, 1⟩)
      [.read 1 (fun _ => 2) [] (Matrix.of fun _ _ => 1)] = .ok st ∧
    ∃ f : (Fin 2 → ℝ) → ℝ, (∀ y, faLpdf st y = .ok (f y)) ∧
      HasMeanCov f 1 (diagonal st.psi + st.lambda * st.lambdaᵀ) :=
  ⟨_, rfl, c97_fa_partial (faInitializeState 1 ⟨0, 1, 1, 1⟩) _ [] _
    (.inr ⟨1, fun _ => 2, [], Matrix.of fun _ _ => 1, rfl⟩) rfl fun _ => two_pos⟩

end Bayesmix.Hierarchies
