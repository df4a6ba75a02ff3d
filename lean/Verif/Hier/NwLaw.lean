import Verif.Hier.WishartLaw
import Verif.Hier.PropsLaw
import Verif.Hier.PropsMixDistMulti

/-!
# The law of a draw from the Normal-Wishart model
-/

namespace Bayesmix.Hierarchies
open Real MeasureTheory ENNReal Matrix

variable {d : ℕ}

/-- The components of a state of the multivariate Normal likelihood. -/
def multiLSParts (s : MultiLS d) :
    ((Fin d → ℝ) × (Fin d → Fin d → ℝ)) × (Fin d → Fin d → ℝ) × ℝ :=
  ((s.mean, fun i j => s.prec i j), fun i j => s.precChol i j, s.precLogdet)

instance : MeasurableSpace (MultiLS d) := MeasurableSpace.comap multiLSParts inferInstance

theorem measurable_multiLSParts : Measurable (multiLSParts (d := d)) := comap_measurable _

theorem measurable_multiLS_pair :
    Measurable fun s : MultiLS d => ((s.mean, fun i j => s.prec i j) :
      (Fin d → ℝ) × (Fin d → Fin d → ℝ)) :=
  measurable_fst.comp measurable_multiLSParts

/-! ### Cholesky factors depend measurably on the matrix -/

theorem IsLLT.sum_split {L M : Matrix (Fin d) (Fin d) ℝ} (h : IsLLT L M) (i j : Fin d) :
    M i j = (∑ k, if k < j then L i k * L j k else 0) + L i j * L j j := by
  have e : M i j = ∑ k, L i k * L j k := by
    rw [← h.2.2, Matrix.mul_apply]
    rfl
  have e2 : ∀ k, L i k * L j k = (if k < j then L i k * L j k else 0) +
      if k = j then L i k * L j k else 0 := by
    intro k
    rcases lt_trichotomy k j with hk | hk | hk
    · simp [hk, hk.ne]
    · simp [hk]
    · rw [if_neg (not_lt.mpr hk.le), if_neg hk.ne', h.1 j k hk]
      simp
  rw [e, Finset.sum_congr rfl fun k _ => e2 k, Finset.sum_add_distrib]
  simp

theorem IsLLT.diag_eq {L M : Matrix (Fin d) (Fin d) ℝ} (h : IsLLT L M) (j : Fin d) :
    L j j = sqrt (M j j - ∑ k, if k < j then L j k * L j k else 0) := by
  rw [h.sum_split j j, add_sub_cancel_left, Real.sqrt_mul_self (h.2.1 j).le]

theorem IsLLT.entry_eq {L M : Matrix (Fin d) (Fin d) ℝ} (h : IsLLT L M) (i j : Fin d) :
    L i j = (M i j - ∑ k, if k < j then L i k * L j k else 0) / L j j := by
  rw [h.sum_split i j, add_sub_cancel_left, mul_div_cancel_right₀ _ (h.2.1 j).ne']

theorem lltL_of_not {M : Matrix (Fin d) (Fin d) ℝ} (hM : ¬ M.PosDef) : lltL M = 0 := by
  unfold lltL
  rw [dif_neg]
  rintro ⟨L, hL⟩
  exact hM hL.posDef

theorem measurable_lltL (i j : Fin d) : Measurable fun w : UT d → ℝ => lltL (symOf w) i j := by
  classical
  have hent : ∀ i j : Fin d, Measurable fun w : UT d → ℝ => symOf w i j := fun i j =>
    measurable_pi_apply (⟨(min i j, max i j), min_le_max⟩ : UT d)
  have key : ∀ (n : ℕ) (j : Fin d), j.val = n → ∀ i,
      Measurable fun w : UT d → ℝ => lltL (symOf w) i j := by
    intro n
    induction n using Nat.strong_induction_on with
    | _ n ih =>
      intro j hj
      have hcol : ∀ k, k < j → ∀ i, Measurable fun w : UT d → ℝ => lltL (symOf w) i k :=
        fun k hk i => ih k.val (by rw [← hj]; exact hk) k rfl i
      have hsum : ∀ i, Measurable fun w : UT d → ℝ =>
          ∑ k, if k < j then lltL (symOf w) i k * lltL (symOf w) j k else 0 := by
        intro i
        refine Finset.measurable_sum _ fun k _ => ?_
        by_cases hk : k < j
        · simp only [if_pos hk]
          exact (hcol k hk i).mul (hcol k hk j)
        · simp only [if_neg hk]
          exact measurable_const
      have hdiag : Measurable fun w : UT d → ℝ => lltL (symOf w) j j := by
        have e : (fun w : UT d → ℝ => lltL (symOf w) j j) = fun w =>
            if (symOf w).PosDef then sqrt (symOf w j j -
              ∑ k, if k < j then lltL (symOf w) j k * lltL (symOf w) j k else 0) else 0 := by
          funext w
          by_cases hw : (symOf w).PosDef
          · rw [if_pos hw]
            exact (lltL_spec hw).diag_eq j
          · rw [if_neg hw, lltL_of_not hw]
            rfl
        rw [e]
        exact Measurable.ite measurableSet_posDef (((hent j j).sub (hsum j)).sqrt) measurable_const
      intro i
      have e : (fun w : UT d → ℝ => lltL (symOf w) i j) = fun w =>
          if (symOf w).PosDef then (symOf w i j -
            ∑ k, if k < j then lltL (symOf w) i k * lltL (symOf w) j k else 0) /
              lltL (symOf w) j j else 0 := by
        funext w
        by_cases hw : (symOf w).PosDef
        · rw [if_pos hw]
          exact (lltL_spec hw).entry_eq i j
        · rw [if_neg hw, lltL_of_not hw]
          rfl
      rw [e]
      exact Measurable.ite measurableSet_posDef (((hent i j).sub (hsum i)).div hdiag)
        measurable_const
  exact key j.val j rfl i

/-! ### The law -/

/-- The state that `NWPriorModel::sample` returns when it draws the precision with the given upper
entries and the given mean. -/
noncomputable def nwState (x : (Fin d → ℝ) × (UT d → ℝ)) : MultiLS d :=
  writePrecToState (symOf x.2) ⟨x.1, 0, 0, 0⟩

@[simp] theorem nwState_mean (x : (Fin d → ℝ) × (UT d → ℝ)) : (nwState x).mean = x.1 := rfl
@[simp] theorem nwState_prec (x : (Fin d → ℝ) × (UT d → ℝ)) : (nwState x).prec = symOf x.2 := rfl

theorem measurable_symOf_entry (i j : Fin d) :
    Measurable fun x : (Fin d → ℝ) × (UT d → ℝ) => symOf x.2 i j :=
  (measurable_pi_apply (⟨(min i j, max i j), min_le_max⟩ : UT d)).comp measurable_snd

theorem measurable_nwState : Measurable (nwState (d := d)) := by
  rw [measurable_comap_iff]
  have hc : ∀ i j : Fin d, Measurable fun x : (Fin d → ℝ) × (UT d → ℝ) => lltL (symOf x.2) j i :=
    fun i j => (measurable_lltL j i).comp measurable_snd
  refine Measurable.prodMk (Measurable.prodMk measurable_fst ?_) (Measurable.prodMk ?_ ?_)
  · exact measurable_pi_lambda _ fun i => measurable_pi_lambda _ fun j => measurable_symOf_entry i j
  · exact measurable_pi_lambda _ fun i => measurable_pi_lambda _ fun j => hc i j
  · exact measurable_const.mul (Finset.measurable_sum _ fun i _ =>
      Real.measurable_log.comp (hc i i))

theorem measurable_multiNormal {α : Type*} [MeasurableSpace α] {f g : α → Fin d → ℝ}
    {A : α → Matrix (Fin d) (Fin d) ℝ} (hf : Measurable f) (hg : Measurable g)
    (hA : Measurable fun a => fun i j => A a i j) :
    Measurable fun a => stanMultiNormalPrecLpdf (f a) (g a) (A a) := by
  have hc : Continuous fun x : (Fin d → ℝ) × (Fin d → Fin d → ℝ) => (Matrix.of x.2).det :=
    Continuous.matrix_det continuous_snd
  have hq : Continuous fun x : (Fin d → ℝ) × (Fin d → Fin d → ℝ) =>
      x.1 ⬝ᵥ (Matrix.of x.2 *ᵥ x.1) :=
    continuous_fst.dotProduct (Continuous.matrix_mulVec continuous_snd continuous_fst)
  have hp : Measurable fun a => ((f a - g a, fun i j => A a i j) :
      (Fin d → ℝ) × (Fin d → Fin d → ℝ)) := (hf.sub hg).prodMk hA
  have h1 := hc.measurable.comp hp
  have h2 := hq.measurable.comp hp
  unfold stanMultiNormalPrecLpdf
  exact (measurable_const.add (measurable_const.mul (Real.measurable_log.comp h1))).sub
    (measurable_const.mul h2)

theorem measurable_nwLpdf (h : NW d) :
    Measurable fun x : (Fin d → ℝ) × (UT d → ℝ) => nwLpdf h x.1 (symOf x.2) := by
  have hs : Measurable fun x : (Fin d → ℝ) × (UT d → ℝ) => fun i j => symOf x.2 i j := by
    refine measurable_pi_lambda _ fun i => measurable_pi_lambda _ fun j => ?_
    exact measurable_symOf_entry i j
  unfold nwLpdf
  refine Measurable.add (measurable_multiNormal measurable_fst measurable_const ?_) ?_
  · refine measurable_pi_lambda _ fun i => measurable_pi_lambda _ fun j => ?_
    exact measurable_const.mul ((measurable_pi_apply j).comp ((measurable_pi_apply i).comp hs))
  · have h1 : Measurable fun x : (Fin d → ℝ) × (UT d → ℝ) => (symOf x.2).det :=
      ((continuous_symOf.comp continuous_snd).matrix_det).measurable
    have h2 : Measurable fun x : (Fin d → ℝ) × (UT d → ℝ) => (h.scale⁻¹ * symOf x.2).trace :=
      ((continuous_const.matrix_mul (continuous_symOf.comp continuous_snd)).matrix_trace).measurable
    unfold wishartLpdf
    exact ((measurable_const.add (measurable_const.mul (Real.measurable_log.comp h1))).sub
      measurable_const).sub (measurable_const.mul h2)

/-- The law of a draw of mean and precision with hyperparameters `h`: density `nwLpdf`. -/
noncomputable def nwLaw (h : NW d) : Measure (MultiLS d) :=
  ((volume.prod (volume.restrict {w : UT d → ℝ | (symOf w).PosDef})).withDensity
    fun x : (Fin d → ℝ) × (UT d → ℝ) => ENNReal.ofReal (exp (nwLpdf h x.1 (symOf x.2)))).map nwState

theorem lintegral_nwLaw (h : NW d) {φ : MultiLS d → ℝ≥0∞} (hφ : Measurable φ) :
    ∫⁻ s, φ s ∂(nwLaw h) = ∫⁻ w in {w : UT d → ℝ | (symOf w).PosDef}, ∫⁻ m,
      ENNReal.ofReal (exp (nwLpdf h m (symOf w))) * φ (nwState (m, w)) := by
  have hm : Measurable fun x : (Fin d → ℝ) × (UT d → ℝ) =>
      ENNReal.ofReal (exp (nwLpdf h x.1 (symOf x.2))) :=
    ENNReal.measurable_ofReal.comp (Real.measurable_exp.comp (measurable_nwLpdf h))
  have hp : Measurable fun x : (Fin d → ℝ) × (UT d → ℝ) => φ (nwState x) :=
    hφ.comp measurable_nwState
  rw [nwLaw, lintegral_map hφ measurable_nwState, lintegral_withDensity_eq_lintegral_mul _ hm hp,
    lintegral_prod_symm _ (hm.mul hp).aemeasurable]
  rfl

theorem nwLaw_prob {h : NW d} (hv : NWValid h) : IsProbabilityMeasure (nwLaw h) := by
  constructor
  have h1 := lintegral_nwLaw h (φ := fun _ => 1) measurable_const
  rw [lintegral_const, one_mul] at h1
  simp only [mul_one] at h1
  rw [h1, lintegral_nw hv]

/-- The Normal log density of `y` at the mean and precision of a state. -/
noncomputable def normalAt (st : MultiLS d) (y : Fin d → ℝ) : ℝ :=
  stanMultiNormalPrecLpdf y st.mean st.prec

theorem measurable_normalAt (y : Fin d → ℝ) : Measurable fun st : MultiLS d => normalAt st y :=
  measurable_multiNormal measurable_const (measurable_fst.comp measurable_multiLS_pair)
    (measurable_snd.comp measurable_multiLS_pair)

/-- The log density that the library evaluates. -/
theorem measurable_multiNormLpdf (y : Fin d → ℝ) :
    Measurable fun st : MultiLS d => multiNormLpdf st y := by
  have h1 : Measurable fun st : MultiLS d => st.precLogdet :=
    measurable_snd.comp (measurable_snd.comp measurable_multiLSParts)
  have h2 : Measurable fun st : MultiLS d => ((st.mean, fun i j => st.precChol i j) :
      (Fin d → ℝ) × (Fin d → Fin d → ℝ)) :=
    (measurable_fst.comp (measurable_fst.comp measurable_multiLSParts)).prodMk
      (measurable_fst.comp (measurable_snd.comp measurable_multiLSParts))
  have hq : Continuous fun x : (Fin d → ℝ) × (Fin d → Fin d → ℝ) =>
      ((Matrix.of x.2)ᵀ *ᵥ (y - x.1)) ⬝ᵥ ((Matrix.of x.2)ᵀ *ᵥ (y - x.1)) := by
    have : Continuous fun x : (Fin d → ℝ) × (Fin d → Fin d → ℝ) =>
        (Matrix.of x.2)ᵀ *ᵥ (y - x.1) :=
      Continuous.matrix_mulVec (Continuous.matrix_transpose continuous_snd)
        (continuous_const.sub continuous_fst)
    exact this.dotProduct this
  have h3 := hq.measurable.comp h2
  unfold multiNormLpdf multiNormalPrecLpdf
  simp only []
  exact ((measurable_const.mul h1).add measurable_const).sub (measurable_const.mul h3)

theorem nwLaw_bayes {h : NW d} (hv : NWValid h) (y : Fin d → ℝ) {φ : MultiLS d → ℝ≥0∞}
    (hφ : Measurable φ) :
    ∫⁻ s, ENNReal.ofReal (exp (normalAt s y)) * φ s ∂(nwLaw h) =
      ENNReal.ofReal (exp (nnwMargLpdf (nwGetProto h) y)) *
        ∫⁻ s, φ s ∂(nwLaw (nwSetFromProto (nnwPosterior h 1 ⟨y, vecMulVec y y⟩))) := by
  have hL : Measurable fun s : MultiLS d => ENNReal.ofReal (exp (normalAt s y)) :=
    ENNReal.measurable_ofReal.comp (Real.measurable_exp.comp (measurable_normalAt y))
  obtain ⟨p, hp⟩ : ∃ p, p = nwSetFromProto (nnwPosterior h 1 ⟨y, vecMulVec y y⟩) := ⟨_, rfl⟩
  obtain ⟨c, hc⟩ : ∃ c, c = nnwMargLpdf (nwGetProto h) y := ⟨_, rfl⟩
  have hB : ∀ (m : Fin d → ℝ) (W : Matrix (Fin d) (Fin d) ℝ), W.PosDef →
      stanMultiNormalPrecLpdf y m W + nwLpdf h m W = c + nwLpdf p m W := by
    intro m W hW
    rw [hp, hc]
    exact nnw_bayes h hv y m W hW
  have hLφ : Measurable fun s : MultiLS d => ENNReal.ofReal (exp (normalAt s y)) * φ s := hL.mul hφ
  have hcφ : Measurable fun s : MultiLS d => ENNReal.ofReal (exp c) * φ s := hφ.const_mul _
  rw [← hp, ← hc, lintegral_nwLaw h hLφ, ← lintegral_const_mul _ hφ, lintegral_nwLaw p hcφ]
  refine setLIntegral_congr_fun measurableSet_posDef fun w hw => ?_
  refine lintegral_congr fun m => ?_
  rw [← mul_assoc, ← mul_assoc, ← ENNReal.ofReal_mul (exp_pos _).le,
    ← ENNReal.ofReal_mul (exp_pos _).le, ← exp_add, ← exp_add, add_comm (nwLpdf h _ _), add_comm _ c,
    ← hB m (symOf w) hw]
  rfl

end Bayesmix.Hierarchies
