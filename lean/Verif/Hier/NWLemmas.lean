import Verif.Hier.MatLemmas

/-!
# Facts about the Normal-Wishart update
-/

namespace Bayesmix.Hierarchies

open Real Matrix

variable {d : ℕ}

/-- The conditions on the hyperparameters that initialization establishes. -/
structure NWValid (h : NW d) : Prop where
  scaling : 0 < h.varScaling
  df : (d : ℝ) - 1 < h.degFree
  posDef : h.scale.PosDef
  inv : h.scaleInv = h.scale⁻¹
  chol : h.scaleChol = lltU h.scale

theorem nwFinish_valid {m : Fin d → ℝ} {l nu : ℝ} {s : Matrix (Fin d) (Fin d) ℝ} {h : NW d}
    (hl : 0 < l) (hnu : (d : ℝ) - 1 < nu) (hp : nwFinish m l nu s = .ok h) : NWValid h := by
  unfold nwFinish inverseSpd at hp
  by_cases hs : s.PosDef
  · rw [if_pos hs] at hp
    cases hp
    exact ⟨hl, hnu, hs, rfl, rfl⟩
  · rw [if_neg hs] at hp
    cases hp

theorem nwFinish_ok {m : Fin d → ℝ} {l nu : ℝ} {s : Matrix (Fin d) (Fin d) ℝ} (hs : s.PosDef) :
    nwFinish m l nu s = .ok ⟨m, l, nu, s, s⁻¹, lltU s⟩ := by
  unfold nwFinish inverseSpd
  rw [if_pos hs]
  rfl

theorem checkSpd_bind {α : Type} {s : Matrix (Fin d) (Fin d) ℝ} {k : Except Fault α} {a : α}
    (h : (do checkSpd s; k) = .ok a) : s.PosDef ∧ k = .ok a := by
  unfold checkSpd at h
  by_cases hs : s.PosDef
  · rw [if_pos hs] at h
    exact ⟨hs, h⟩
  · rw [if_neg hs] at h
    cases h

theorem nwInit_valid {p : NWPrior d} {h : NW d} (hp : nwInit p = .ok h) : NWValid h := by
  cases p with
  | fixed m l s nu =>
    simp only [nwInit] at hp
    split at hp
    · cases hp
    split at hp
    · cases hp
    rename_i h1 h2
    exact nwFinish_valid (not_le.1 h1) (not_le.1 h2) hp
  | normalMean m s l t nu =>
    obtain ⟨-, hp⟩ := checkSpd_bind hp
    split at hp
    · cases hp
    rename_i h1
    obtain ⟨-, hp⟩ := checkSpd_bind hp
    split at hp
    · cases hp
    rename_i h2
    exact nwFinish_valid (not_le.1 h1) (not_le.1 h2) hp
  | ngiw m s a b nu0 t nu =>
    obtain ⟨-, hp⟩ := checkSpd_bind hp
    split at hp
    · cases hp
    split at hp
    · cases hp
    split at hp
    · cases hp
    rename_i h1 h2 h3
    obtain ⟨-, hp⟩ := checkSpd_bind hp
    split at hp
    · cases hp
    rename_i h4
    exact nwFinish_valid (div_pos (not_le.1 h1) (not_le.1 h2)) (not_le.1 h4) hp
  | unset => cases hp

/-- Valid hyperparameters are accepted as fixed values. -/
theorem nwInit_fixed {h : NW d} (hv : NWValid h) :
    nwInit (.fixed h.mean h.varScaling h.scale h.degFree) = .ok h := by
  simp only [nwInit]
  rw [if_neg (not_le.2 hv.scaling), if_neg (not_le.2 hv.df), nwFinish_ok hv.posDef, ← hv.inv,
    ← hv.chol]

/-- The inverse scale after an update. -/
noncomputable def nwInvScale (h : NW d) (n : ℝ) (s : MultiNormStats d) :
    Matrix (Fin d) (Fin d) ℝ :=
  h.scaleInv + s.dataSumSquares + h.varScaling • vecMulVec h.mean h.mean
    - (1 / (h.varScaling + n)) • vecMulVec (h.varScaling • h.mean + s.dataSum)
        (h.varScaling • h.mean + s.dataSum)

theorem nnwPosterior_of_ne (h : NW d) (n : ℤ) (s : MultiNormStats d) (hn : n ≠ 0)
    (hl : h.varScaling + n ≠ 0) :
    nnwPosterior h n s =
      ⟨(1 / (h.varScaling + n)) • (h.varScaling • h.mean + s.dataSum), h.varScaling + n,
        h.degFree + n, (nwInvScale h n s)⁻¹, lltU (nwInvScale h n s)⁻¹⟩ := by
  have hn' : (n : ℝ) ≠ 0 := by exact_mod_cast hn
  have hl' : (n : ℝ) + h.varScaling ≠ 0 := by rwa [add_comm]
  have e : s.dataSumSquares - (n : ℝ) • vecMulVec ((1 / (n : ℝ)) • s.dataSum)
        ((1 / (n : ℝ)) • s.dataSum) +
      (n * h.varScaling / (n + h.varScaling)) •
        vecMulVec ((1 / (n : ℝ)) • s.dataSum - h.mean) ((1 / (n : ℝ)) • s.dataSum - h.mean) +
      h.scaleInv = nwInvScale h n s := by
    ext i j
    simp only [nwInvScale, Matrix.add_apply, Matrix.sub_apply, Matrix.smul_apply, vecMulVec_apply,
      Pi.smul_apply, Pi.sub_apply, Pi.add_apply, smul_eq_mul]
    field_simp
    ring
  unfold nnwPosterior
  rw [if_neg hn]
  simp only []
  rw [e]
  congr 2
  rw [smul_smul, mul_one_div_cancel hn', one_smul]

/-- After one datum the inverse scale grows by a multiple of a rank one matrix. -/
theorem nwInvScale_one (h : NW d) (hl : 0 < h.varScaling) (y : Fin d → ℝ) :
    nwInvScale h 1 ⟨y, vecMulVec y y⟩ =
      h.scaleInv + (h.varScaling / (h.varScaling + 1)) • vecMulVec (y - h.mean) (y - h.mean) := by
  have : h.varScaling + 1 ≠ 0 := by positivity
  ext i j
  simp only [nwInvScale, Matrix.add_apply, Matrix.sub_apply, Matrix.smul_apply, vecMulVec_apply,
    Pi.smul_apply, Pi.sub_apply, Pi.add_apply, smul_eq_mul]
  field_simp
  ring

theorem vecMulVec_smul_both (c : ℝ) (hc : 0 ≤ c) (u : Fin d → ℝ) :
    c • vecMulVec u u = vecMulVec (sqrt c • u) (sqrt c • u) := by
  ext i j
  simp only [Matrix.smul_apply, vecMulVec_apply, Pi.smul_apply, smul_eq_mul]
  have := Real.mul_self_sqrt hc
  linear_combination (-(u i * u j)) * this

theorem nwInvScale_one_posDef (h : NW d) (hv : NWValid h) (y : Fin d → ℝ) :
    (nwInvScale h 1 ⟨y, vecMulVec y y⟩).PosDef := by
  have hl := hv.scaling
  rw [nwInvScale_one h hl, vecMulVec_smul_both _ (by positivity)]
  have : h.scaleInv.PosDef := by rw [hv.inv]; exact hv.posDef.inv
  exact this.add_posSemidef (posSemidef_vecMulVec _)

theorem inv_inv_of_posDef {M : Matrix (Fin d) (Fin d) ℝ} (h : M.PosDef) : M⁻¹⁻¹ = M :=
  nonsing_inv_nonsing_inv _ (PosDef.isUnit_det' h)

theorem nwSet_get {h : NW d} (hv : NWValid h) : nwSetFromProto (nwGetProto h) = h := by
  unfold nwSetFromProto nwGetProto
  ext <;> simp [hv.inv]

theorem nnwPosterior_one_valid (h : NW d) (hv : NWValid h) (y : Fin d → ℝ) :
    NWValid (nwSetFromProto (nnwPosterior h 1 ⟨y, vecMulVec y y⟩)) := by
  have hl := hv.scaling
  have hpd := nwInvScale_one_posDef h hv y
  rw [nnwPosterior_of_ne h 1 _ one_ne_zero (by push_cast; positivity)]
  simp only [nwSetFromProto, Int.cast_one]
  exact ⟨by simp only; positivity, by simp only; linarith [hv.df], hpd.inv, rfl, rfl⟩

/-- Statistics of a list of data. -/
def multiSums (ys : List (Fin d → ℝ)) : MultiNormStats d :=
  ⟨ys.sum, (ys.map (fun y => vecMulVec y y)).sum⟩

/-- Adding one datum to a batch. -/
theorem nnwPosterior_succ (h : NW d) (hv : NWValid h) (n : ℕ) (s : MultiNormStats d)
    (h0 : n = 0 → s = multiNormZero d) (hpd : (nwInvScale h n s).PosDef) (y : Fin d → ℝ) :
    nnwPosterior (nwSetFromProto (nnwPosterior h n s)) 1 ⟨y, vecMulVec y y⟩ =
      nnwPosterior h (n + 1) ⟨s.dataSum + y, s.dataSumSquares + vecMulVec y y⟩ := by
  have hl := hv.scaling
  rcases Nat.eq_zero_or_pos n with rfl | hn
  · rw [h0 rfl]
    have : nnwPosterior h ((0 : ℕ) : ℤ) (multiNormZero d) = nwGetProto h := by simp [nnwPosterior]
    rw [this, nwSet_get hv]
    simp [multiNormZero]
  have hn' : (0 : ℝ) < n := by exact_mod_cast hn
  rw [nnwPosterior_of_ne h n s (by omega) (by push_cast; positivity),
    nnwPosterior_of_ne h (n + 1) _ (by omega) (by push_cast; positivity),
    nnwPosterior_of_ne _ 1 _ one_ne_zero (by simp only [nwSetFromProto]; push_cast; positivity)]
  have e : nwInvScale (nwSetFromProto
      ⟨(1 / (h.varScaling + ((n : ℤ) : ℝ))) • (h.varScaling • h.mean + s.dataSum),
        h.varScaling + ((n : ℤ) : ℝ), h.degFree + ((n : ℤ) : ℝ),
        (nwInvScale h ((n : ℤ) : ℝ) s)⁻¹, lltU (nwInvScale h ((n : ℤ) : ℝ) s)⁻¹⟩) 1
        ⟨y, vecMulVec y y⟩ =
      nwInvScale h (n + 1) ⟨s.dataSum + y, s.dataSumSquares + vecMulVec y y⟩ := by
    push_cast
    obtain ⟨X, hX⟩ : ∃ X, X = nwInvScale h n s := ⟨_, rfl⟩
    rw [← hX] at hpd ⊢
    have hXX := inv_inv_of_posDef hpd
    conv_lhs => unfold nwInvScale
    simp only [nwSetFromProto]
    rw [hXX, hX]
    ext i j
    simp only [nwInvScale, Matrix.add_apply, Matrix.sub_apply, Matrix.smul_apply,
      vecMulVec_apply, Pi.smul_apply, Pi.add_apply, smul_eq_mul]
    field_simp
    ring
  push_cast at e ⊢
  rw [e]
  simp only [nwSetFromProto]
  ext i j
  · simp only [Pi.smul_apply, Pi.add_apply, smul_eq_mul]
    field_simp
    ring
  · simp only; ring
  · simp only; ring
  · rfl
  · rfl

theorem nwInvScale_cast_posDef (h : NW d) (hv : NWValid h) (ys : List (Fin d → ℝ)) :
    (nwInvScale h ys.length (multiSums ys)).PosDef ∧
    nwSetFromProto (nnwPosterior h ys.length (multiSums ys)) =
      ys.foldl (fun h y => nwSetFromProto (nnwPosterior h 1 ⟨y, vecMulVec y y⟩)) h ∧
    NWValid (nwSetFromProto (nnwPosterior h ys.length (multiSums ys))) := by
  have hl := hv.scaling
  induction ys using List.reverseRecOn with
  | nil =>
    have e : nnwPosterior h (([] : List (Fin d → ℝ)).length : ℤ) (multiSums []) = nwGetProto h := by
      simp [nnwPosterior]
    rw [e, nwSet_get hv]
    refine ⟨?_, rfl, hv⟩
    have : nwInvScale h (([] : List (Fin d → ℝ)).length : ℝ) (multiSums []) = h.scaleInv := by
      ext i j
      simp only [nwInvScale, multiSums, Matrix.add_apply, Matrix.sub_apply, Matrix.smul_apply,
        vecMulVec_apply, Pi.smul_apply, Pi.add_apply, smul_eq_mul, List.length_nil, Nat.cast_zero,
        List.sum_nil, List.map_nil, Pi.zero_apply, Matrix.zero_apply]
      field_simp
      ring
    rw [this, hv.inv]
    exact hv.posDef.inv
  | append_singleton ys y ih =>
    obtain ⟨h1, h2, h3⟩ := ih
    have hs : multiSums (ys ++ [y]) = ⟨(multiSums ys).dataSum + y,
        (multiSums ys).dataSumSquares + vecMulVec y y⟩ := by
      simp [multiSums]
    have hz : ys.length = 0 → multiSums ys = multiNormZero d := by
      intro h0; have := List.eq_nil_of_length_eq_zero h0; subst this; rfl
    have e := nnwPosterior_succ h hv ys.length (multiSums ys) hz h1 y
    rw [List.foldl_append, List.foldl_cons, List.foldl_nil, ← h2, e, hs, List.length_append,
      List.length_singleton]
    push_cast
    refine ⟨?_, rfl, ?_⟩
    · have hp1 := nwInvScale_one_posDef _ h3 y
      rw [nnwPosterior_of_ne _ 1 _ one_ne_zero (by have := h3.scaling; push_cast; positivity),
        nnwPosterior_of_ne h (ys.length + 1) _ (by omega) (by push_cast; positivity)] at e
      have e' := congrArg NWProto.scale e
      simp only at e'
      have e'' := congrArg (·⁻¹) e'
      simp only [Int.cast_one, Int.cast_add, Int.cast_natCast] at e''
      rw [inv_inv_of_posDef hp1] at e''
      have hp2 : (nwInvScale h (ys.length + 1) ⟨(multiSums ys).dataSum + y,
          (multiSums ys).dataSumSquares + vecMulVec y y⟩)⁻¹.PosDef := by
        have := hp1.inv
        have e3 := e'
        simp only [Int.cast_one, Int.cast_add, Int.cast_natCast] at e3
        rwa [e3] at this
      exact Matrix.posDef_inv_iff.1 hp2
    · rw [← e]
      exact nnwPosterior_one_valid _ h3 y

/-! ### Bayes' rule -/

theorem lmgamma_half (d : ℕ) (nu : ℝ) :
    lmgamma d ((nu + 1) / 2) - lmgamma d (nu / 2) =
      log (Gamma ((nu + 1) / 2)) - log (Gamma ((nu - d + 1) / 2)) := by
  unfold lmgamma
  have h : ∀ k : ℕ, (∑ j : Fin k, log (Gamma ((nu + 1) / 2 - j / 2))) -
      (∑ j : Fin k, log (Gamma (nu / 2 - j / 2))) =
      log (Gamma ((nu + 1) / 2)) - log (Gamma ((nu - k + 1) / 2)) := by
    intro k
    induction k with
    | zero => simp
    | succ k ih =>
      rw [Fin.sum_univ_castSucc, Fin.sum_univ_castSucc]
      simp only [Fin.val_castSucc, Fin.val_last]
      push_cast
      have e1 : (nu + 1) / 2 - (k : ℝ) / 2 = (nu - k + 1) / 2 := by ring
      have e2 : nu / 2 - (k : ℝ) / 2 = (nu - (k + 1) + 1) / 2 := by ring
      rw [e1, e2]
      linarith
  have := h d
  linarith

/-- The marginal density of the code in closed form. -/
theorem nnwMargLpdf_eq (h : NW d) (hv : NWValid h) (y : Fin d → ℝ) :
    nnwMargLpdf (nwGetProto h) y =
      log (Gamma ((h.degFree + 1) / 2)) - log (Gamma ((h.degFree - d + 1) / 2))
        - (d / 2) * log π + (d / 2) * log (h.varScaling / (h.varScaling + 1))
        + (1 / 2) * log h.scale.det
        - ((h.degFree + 1) / 2) * log (1 + h.varScaling / (h.varScaling + 1) *
            ((y - h.mean) ⬝ᵥ (h.scale *ᵥ (y - h.mean)))) := by
  have hl := hv.scaling
  have hdf := hv.df
  have hnu : 0 < h.degFree - d + 1 := by linarith
  have hchol := lltL_spec hv.posDef
  have hquad := hchol.quad (y - h.mean)
  have hlog := hchol.logdet
  unfold nnwMargLpdf multiStudentTInvscaleLpdf nwGetProto
  simp only []
  rw [hv.chol]
  obtain ⟨co, hco⟩ : ∃ co, co = (h.varScaling + 1) / (h.varScaling * (h.degFree - d + 1)) :=
    ⟨_, rfl⟩
  have hcop : 0 < co := by rw [hco]; positivity
  rw [← hco, smul_mulVec, dotProduct_smul, smul_dotProduct]
  simp only [lltU] at *
  rw [hquad]
  have hsum : ∑ i, log (((1 / sqrt co) • (lltL h.scale)ᵀ) i i) =
      (∑ i, log (lltL h.scale i i)) - d / 2 * log co := by
    have : ∀ i, log (((1 / sqrt co) • (lltL h.scale)ᵀ) i i) =
        log (lltL h.scale i i) - 1 / 2 * log co := by
      intro i
      have hi := hchol.2.1 i
      rw [Matrix.smul_apply, transpose_apply, smul_eq_mul, log_mul (by positivity) hi.ne',
        one_div, log_inv, Real.log_sqrt hcop.le]
      ring
    simp only [this]
    rw [Finset.sum_sub_distrib, Finset.sum_const, Finset.card_univ, Fintype.card_fin,
      nsmul_eq_mul]
    ring
  rw [hsum, mul_sub, hlog]
  have hco2 : log co = log (h.varScaling + 1) - log h.varScaling - log (h.degFree - d + 1) := by
    rw [hco, log_div (by positivity) (by positivity), log_mul hl.ne' hnu.ne']
    ring
  rw [hco2, log_div (x := h.varScaling) hl.ne' (by positivity)]
  simp only [smul_eq_mul]
  have e3 : 1 / sqrt co * (1 / sqrt co * ((y - h.mean) ⬝ᵥ h.scale *ᵥ (y - h.mean))) /
      (h.degFree - d + 1) = h.varScaling / (h.varScaling + 1) *
        ((y - h.mean) ⬝ᵥ h.scale *ᵥ (y - h.mean)) := by
    have : 1 / sqrt co * (1 / sqrt co) = 1 / co := by
      rw [div_mul_div_comm, Real.mul_self_sqrt hcop.le, one_mul]
    rw [← mul_assoc, this, hco]
    field_simp
  rw [e3, show (h.degFree - d + 1 + d) * 0.5 = (h.degFree + 1) / 2 by norm_num; ring,
    show (h.degFree - d + 1) * 0.5 = (h.degFree - d + 1) / 2 by norm_num; ring,
    show (0.5 : ℝ) = 1 / 2 by norm_num]
  ring

theorem trace_vecMulVec_mul (u : Fin d → ℝ) (W : Matrix (Fin d) (Fin d) ℝ) :
    (vecMulVec u u * W).trace = u ⬝ᵥ (W *ᵥ u) := by
  rw [Matrix.trace_mul_comm, Matrix.mul_vecMulVec, Matrix.trace_vecMulVec, dotProduct_comm]

/-- Bayes' rule for one datum, with the Normal density in terms of the precision. -/
theorem nnw_bayes (h : NW d) (hv : NWValid h) (y mu : Fin d → ℝ)
    (W : Matrix (Fin d) (Fin d) ℝ) (hW : W.PosDef) :
    stanMultiNormalPrecLpdf y mu W + nwLpdf h mu W =
      nnwMargLpdf (nwGetProto h) y +
        nwLpdf (nwSetFromProto (nnwPosterior h 1 ⟨y, vecMulVec y y⟩)) mu W := by
  have hl := hv.scaling
  have hpd := nwInvScale_one_posDef h hv y
  have hone := nwInvScale_one h hl y
  rw [nnwMargLpdf_eq h hv, nnwPosterior_of_ne h 1 _ one_ne_zero (by push_cast; positivity)]
  simp only [Int.cast_one, nwSetFromProto, nwLpdf, wishartLpdf]
  rw [inv_inv_of_posDef hpd, det_nonsing_inv, Ring.inverse_eq_inv', log_inv]
  rw [hone]
  obtain ⟨u, hu⟩ : ∃ u, u = y - h.mean := ⟨_, rfl⟩
  obtain ⟨c, hc⟩ : ∃ c, c = h.varScaling / (h.varScaling + 1) := ⟨_, rfl⟩
  have hcp : 0 < c := by rw [hc]; positivity
  rw [← hu, ← hc, hv.inv]
  have hTu := PosDef.quad_nonneg hv.posDef u
  -- determinant
  have hdet : (h.scale⁻¹ + c • vecMulVec u u).det =
      h.scale.det⁻¹ * (1 + c * (u ⬝ᵥ (h.scale *ᵥ u))) := by
    rw [vecMulVec_smul_both c hcp.le, det_add_vecMulVec (PosDef.isUnit_det' hv.posDef.inv),
      inv_inv_of_posDef hv.posDef, det_nonsing_inv, Ring.inverse_eq_inv', mulVec_smul,
      dotProduct_smul, smul_dotProduct, smul_eq_mul, smul_eq_mul, ← mul_assoc,
      Real.mul_self_sqrt hcp.le]
  have hdT := hv.posDef.det_pos
  have hq1 : 0 < 1 + c * (u ⬝ᵥ (h.scale *ᵥ u)) := by positivity
  rw [hdet, log_mul (x := h.scale.det⁻¹) (by positivity) hq1.ne', log_inv]
  -- trace
  rw [Matrix.add_mul, trace_add, smul_mul, trace_smul, trace_vecMulVec_mul, smul_eq_mul]
  -- Normal densities
  have h1 := stanMultiNormalPrecLpdf_smul y mu hW one_pos
  rw [one_smul, log_one] at h1
  rw [h1, stanMultiNormalPrecLpdf_smul _ _ hW hl,
    stanMultiNormalPrecLpdf_smul _ _ hW (by positivity : 0 < h.varScaling + 1)]
  have hquad : (h.varScaling + 1) * ((mu - (1 / (h.varScaling + 1)) • (h.varScaling • h.mean + y))
      ⬝ᵥ (W *ᵥ (mu - (1 / (h.varScaling + 1)) • (h.varScaling • h.mean + y)))) +
      c * (u ⬝ᵥ (W *ᵥ u)) =
      (y - mu) ⬝ᵥ (W *ᵥ (y - mu)) +
        h.varScaling * ((mu - h.mean) ⬝ᵥ (W *ᵥ (mu - h.mean))) := by
    have c1 := PosDef.dot_comm hW h.mean mu
    have c2 := PosDef.dot_comm hW y mu
    have c3 := PosDef.dot_comm hW h.mean y
    rw [hu, hc]
    simp only [mulVec_sub, mulVec_smul, mulVec_add, sub_dotProduct, dotProduct_sub,
      smul_dotProduct, dotProduct_smul, add_dotProduct, dotProduct_add, smul_eq_mul]
    rw [c1, c2, c3]
    field_simp
    ring

  have hg := lmgamma_half d h.degFree
  rw [log_mul (x := 2) (y := π) (by norm_num) pi_ne_zero]
  have hlc : log c = log h.varScaling - log (h.varScaling + 1) := by
    rw [hc, log_div hl.ne' (by positivity)]
  rw [hlc]
  linear_combination (1 / 2) * hquad + hg

end Bayesmix.Hierarchies
