import Verif.Hier.NwLaw

/-!
# C96: the marginal density of the Normal-Wishart hierarchy and the likelihood of drawn states
-/

namespace Bayesmix.Hierarchies
open Real MeasureTheory ENNReal Matrix

variable {d : ℕ}

theorem IsLLT.flip_posDef {L M : Matrix (Fin d) (Fin d) ℝ} (h : IsLLT L M) : (Lᵀ * L).PosDef := by
  have hd : L.det ≠ 0 := by
    have := h.posDef.det_pos
    rw [← h.2.2, det_mul, det_transpose] at this
    intro h0
    rw [h0] at this
    simp at this
  have := Matrix.PosDef.conjTranspose_mul_self L
    (Matrix.mulVec_injective_iff_isUnit.mpr ((isUnit_iff_isUnit_det _).mpr hd.isUnit))
  rwa [conjTranspose_eq_transpose_of_trivial] at this

theorem IsLLT.flip_det {L M : Matrix (Fin d) (Fin d) ℝ} (h : IsLLT L M) : (Lᵀ * L).det = M.det := by
  rw [← h.2.2, det_mul, det_mul, mul_comm]

/-- The likelihood of a drawn state is the Normal density with another precision. -/
theorem multiNormLpdf_nwState (m : Fin d → ℝ) (w : UT d → ℝ) (hw : (symOf w).PosDef)
    (y : Fin d → ℝ) : multiNormLpdf (nwState (m, w)) y =
      stanMultiNormalPrecLpdf m y ((lltL (symOf w))ᵀ * lltL (symOf w)) := by
  have e : y - m = -(m - y) := by abel
  rw [nwState, multiNormLpdf_upper _ _ _ hw]
  unfold stanMultiNormalPrecLpdf
  rw [(lltL_spec hw).flip_det]
  simp only [e, neg_dotProduct, mulVec_neg, dotProduct_neg]
  ring

/-- Integral over the mean, at the mean of the prior. -/
theorem lintegral_mean (mu : Fin d → ℝ) {P Q : Matrix (Fin d) (Fin d) ℝ} (hP : P.PosDef)
    (hQ : Q.PosDef) (k : ℝ) :
    ∫⁻ m, ENNReal.ofReal (exp (stanMultiNormalPrecLpdf m mu P +
      (stanMultiNormalPrecLpdf m mu Q + k))) =
      ENNReal.ofReal (exp (-(d / 2) * log (2 * π) +
        (1 / 2) * (log P.det + log Q.det - log (P + Q).det) + k)) := by
  have hS := hP.add hQ
  have e : ∀ m, ENNReal.ofReal (exp (stanMultiNormalPrecLpdf m mu P +
      (stanMultiNormalPrecLpdf m mu Q + k))) =
      ENNReal.ofReal (exp (-(d / 2) * log (2 * π) +
        (1 / 2) * (log P.det + log Q.det - log (P + Q).det) + k)) *
        ENNReal.ofReal (exp (stanMultiNormalPrecLpdf m mu (P + Q))) := by
    intro m
    rw [← ENNReal.ofReal_mul (exp_pos _).le, ← exp_add]
    congr 2
    unfold stanMultiNormalPrecLpdf
    rw [add_mulVec, dotProduct_add]
    ring
  rw [lintegral_congr e, lintegral_const_mul' _ _ ENNReal.ofReal_ne_top, lintegral_multiNormal _ hS,
    mul_one]

/-- In dimension two: the determinant with the wrong factor is larger. -/
theorem flip_det_lt {L W : Matrix (Fin 2) (Fin 2) ℝ} (h : IsLLT L W) {l : ℝ} (hl : 0 < l)
    (hne : W 0 1 ≠ 0) : (W + l • W).det < (Lᵀ * L + l • W).det := by
  have h01 := h.1 0 1 (by decide)
  have hW := h.2.2
  have w00 : W 0 0 = L 0 0 ^ 2 := by
    rw [← hW]; simp [Matrix.mul_apply, Fin.sum_univ_two, h01]; ring
  have w01 : W 0 1 = L 0 0 * L 1 0 := by
    rw [← hW]; simp [Matrix.mul_apply, Fin.sum_univ_two, h01]
  have w10 : W 1 0 = L 0 0 * L 1 0 := by
    rw [← hW]; simp [Matrix.mul_apply, Fin.sum_univ_two, h01]; ring
  have w11 : W 1 1 = L 1 0 ^ 2 + L 1 1 ^ 2 := by
    rw [← hW]; simp [Matrix.mul_apply, Fin.sum_univ_two]; ring
  have hb : L 1 0 ≠ 0 := by
    intro h0
    rw [w01, h0, mul_zero] at hne
    exact hne rfl
  have hpos : 0 < l * (L 1 0 ^ 2 * ((L 0 0 - L 1 1) ^ 2 + L 1 0 ^ 2)) := by positivity
  rw [det_fin_two, det_fin_two]
  simp only [Matrix.add_apply, Matrix.smul_apply, Matrix.mul_apply, Fin.sum_univ_two,
    transpose_apply, smul_eq_mul, w00, w01, w10, w11, h01]
  nlinarith [hpos]

/-- In dimension two the integral of the likelihood that the library evaluates is too small at the
mean. -/
theorem nnw_evaluated_lt {h : NW 2} (hv : NWValid h) :
    ∫⁻ st, ENNReal.ofReal (exp (multiNormLpdf st h.mean)) ∂(nwLaw h) <
      ENNReal.ofReal (exp (nnwMargLpdf (nwGetProto h) h.mean)) := by
  have hl := hv.scaling
  obtain ⟨mu, hmu⟩ : ∃ mu, mu = h.mean := ⟨_, rfl⟩
  have hmeas1 : Measurable fun st : MultiLS 2 => ENNReal.ofReal (exp (multiNormLpdf st mu)) :=
    ENNReal.measurable_ofReal.comp (Real.measurable_exp.comp (measurable_multiNormLpdf mu))
  have hmeas2 : Measurable fun st : MultiLS 2 => ENNReal.ofReal (exp (normalAt st mu)) :=
    ENNReal.measurable_ofReal.comp (Real.measurable_exp.comp (measurable_normalAt mu))
  have hb := nwLaw_bayes hv mu (φ := fun _ => 1) measurable_const
  have := nwLaw_prob (nnwPosterior_one_valid h hv mu)
  simp only [mul_one, lintegral_one, measure_univ] at hb
  rw [← hmu, ← hb, lintegral_nwLaw h hmeas1, lintegral_nwLaw h hmeas2]
  have e1 : ∀ w : UT 2 → ℝ, (symOf w).PosDef → ∫⁻ m, ENNReal.ofReal (exp (nwLpdf h m (symOf w))) *
      ENNReal.ofReal (exp (multiNormLpdf (nwState (m, w)) mu)) =
      ENNReal.ofReal (exp (-((2 : ℕ) / 2) * log (2 * π) + (1 / 2) * (log (symOf w).det +
        log (h.varScaling • symOf w).det -
          log ((lltL (symOf w))ᵀ * lltL (symOf w) + h.varScaling • symOf w).det) +
        wishartLpdf (symOf w) h.degFree h.scale)) := by
    intro w hw
    have hL := lltL_spec hw
    rw [← hL.flip_det, ← lintegral_mean mu hL.flip_posDef (hw.smul hl)]
    refine lintegral_congr fun m => ?_
    rw [← ENNReal.ofReal_mul (exp_pos _).le, ← exp_add, multiNormLpdf_nwState m w hw, nwLpdf, ← hmu,
      add_comm]
  have e2 : ∀ w : UT 2 → ℝ, (symOf w).PosDef → ∫⁻ m, ENNReal.ofReal (exp (nwLpdf h m (symOf w))) *
      ENNReal.ofReal (exp (normalAt (nwState (m, w)) mu)) =
      ENNReal.ofReal (exp (-((2 : ℕ) / 2) * log (2 * π) + (1 / 2) * (log (symOf w).det +
        log (h.varScaling • symOf w).det - log (symOf w + h.varScaling • symOf w).det) +
        wishartLpdf (symOf w) h.degFree h.scale)) := by
    intro w hw
    rw [← lintegral_mean mu hw (hw.smul hl)]
    refine lintegral_congr fun m => ?_
    have es : normalAt (nwState (m, w)) mu = stanMultiNormalPrecLpdf m mu (symOf w) := by
      have e : mu - m = -(m - mu) := by abel
      unfold normalAt stanMultiNormalPrecLpdf
      simp only [nwState_mean, nwState_prec, e, neg_dotProduct, mulVec_neg, dotProduct_neg, neg_neg]
    rw [← ENNReal.ofReal_mul (exp_pos _).le, ← exp_add, es, nwLpdf, ← hmu, add_comm]
  have hlt : ∀ w : UT 2 → ℝ, (symOf w).PosDef → symOf w 0 1 ≠ 0 →
      ∫⁻ m, ENNReal.ofReal (exp (nwLpdf h m (symOf w))) *
        ENNReal.ofReal (exp (multiNormLpdf (nwState (m, w)) mu)) <
      ∫⁻ m, ENNReal.ofReal (exp (nwLpdf h m (symOf w))) *
        ENNReal.ofReal (exp (normalAt (nwState (m, w)) mu)) := by
    intro w hw hne
    rw [e1 w hw, e2 w hw, ENNReal.ofReal_lt_ofReal_iff (exp_pos _), exp_lt_exp]
    have h1 := log_lt_log (hw.add (hw.smul hl)).det_pos (flip_det_lt (lltL_spec hw) hl hne)
    linarith
  have hg : Measurable fun w : UT 2 → ℝ => ∫⁻ m, ENNReal.ofReal (exp (nwLpdf h m (symOf w))) *
      ENNReal.ofReal (exp (normalAt (nwState (m, w)) mu)) := by
    have hm : Measurable fun x : (Fin 2 → ℝ) × (UT 2 → ℝ) =>
        ENNReal.ofReal (exp (nwLpdf h x.1 (symOf x.2))) *
          ENNReal.ofReal (exp (normalAt (nwState x) mu)) :=
      (ENNReal.measurable_ofReal.comp (Real.measurable_exp.comp (measurable_nwLpdf h))).mul
        (hmeas2.comp measurable_nwState)
    exact hm.lintegral_prod_left'
  have hpos : volume.restrict {w : UT 2 → ℝ | (symOf w).PosDef} ≠ 0 := by
    intro h0
    have := lintegral_nw hv
    rw [h0] at this
    simp at this
  have htot : ∫⁻ w in {w : UT 2 → ℝ | (symOf w).PosDef}, ∫⁻ m,
      ENNReal.ofReal (exp (nwLpdf h m (symOf w))) *
        ENNReal.ofReal (exp (normalAt (nwState (m, w)) mu)) ≠ ∞ := by
    rw [← lintegral_nwLaw h hmeas2, hb]
    exact ENNReal.ofReal_ne_top
  have hae : ∀ᵐ w ∂(volume.restrict {w : UT 2 → ℝ | (symOf w).PosDef}),
      (symOf w).PosDef ∧ symOf w 0 1 ≠ 0 := by
    have h1 : ∀ᵐ w ∂(volume.restrict {w : UT 2 → ℝ | (symOf w).PosDef}), (symOf w).PosDef :=
      ae_restrict_mem measurableSet_posDef
    have h2 : ∀ᵐ w ∂(volume : Measure (UT 2 → ℝ)), symOf w 0 1 ≠ 0 := by
      rw [ae_iff]
      have := Measure.pi_hyperplane (fun _ : UT 2 => (volume : Measure ℝ))
        (⟨(0, 1), by decide⟩ : UT 2) 0
      rw [volume_pi]
      convert this using 2
      ext w
      simp [symOf]
    filter_upwards [h1, ae_restrict_of_ae h2] with w a b using ⟨a, b⟩
  refine lintegral_strict_mono hpos hg.aemeasurable ?_ ?_
  · refine ne_top_of_le_ne_top htot (lintegral_mono_ae ?_)
    filter_upwards [hae] with w hw using (hlt w hw.1 hw.2).le
  · filter_upwards [hae] with w hw using hlt w hw.1 hw.2

/-- **C96, violated.** For every accepted two-dimensional prior, and for the hyperparameters of every
cluster, the marginal density that is used for a new datum equal to the mean is larger than the
integral of the likelihood that the library evaluates at drawn states: the densities that a sampler
compares when it assigns a datum to a new or to an existing cluster belong to different models. -/
theorem c96_nnw_violated (p : NWPrior 2) (h : NW 2) (hp : nwInit p = .ok h) :
    ∫⁻ st, ENNReal.ofReal (exp (multiNormLpdf st h.mean)) ∂(nwLaw h) <
      ENNReal.ofReal (exp (nnwMargLpdf (nwGetProto h) h.mean)) :=
  nnw_evaluated_lt (nwInit_valid hp)

example : ∫⁻ st, ENNReal.ofReal (exp (multiNormLpdf st ![1, 0])) ∂(nwLaw exNW) <
    ENNReal.ofReal (exp (nnwMargLpdf (nwGetProto exNW) ![1, 0])) :=
  c96_nnw_violated _ _ exNW_init

end Bayesmix.Hierarchies
