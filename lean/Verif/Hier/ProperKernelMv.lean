import Verif.Hier.ProperKernel
import Verif.Hier.WishartLaw

/-!
# Proper multivariate priors
-/

namespace Bayesmix.Hierarchies

open Real MeasureTheory Matrix
open scoped ENNReal

variable {d : ℕ}

/-- Kernel of the multivariate normal distribution with mean `mu` and precision matrix `P`. -/
noncomputable def mvNormalKernel (mu : Fin d → ℝ) (P : Matrix (Fin d) (Fin d) ℝ)
    (x : Fin d → ℝ) : ℝ := exp (-((x - mu) ⬝ᵥ (P *ᵥ (x - mu)) / 2))

/-- Kernel of the Wishart distribution with `nu` degrees of freedom and scale matrix `S`, on the
positive definite matrices. -/
noncomputable def wishartDensity (nu : ℝ) (S W : Matrix (Fin d) (Fin d) ℝ) : ℝ :=
  W.det ^ ((nu - d - 1) / 2) * exp (-((S⁻¹ * W).trace / 2))

/-- Kernel of the normal-inverse-Gamma distribution of regression coefficients `m` and variance `v`:
the coefficients have precision matrix `L / v`. -/
noncomputable def mnigKernel (mu : Fin d → ℝ) (L : Matrix (Fin d) (Fin d) ℝ) (a b : ℝ)
    (m : Fin d → ℝ) (v : ℝ) : ℝ :=
  invGammaKernel a b v * (v ^ (-(d / 2) : ℝ) * mvNormalKernel mu (v⁻¹ • L) m)

/-- Kernel of the Normal-Wishart distribution: a Wishart precision matrix `W`, and a normal mean
with precision matrix `l W`. -/
noncomputable def nwKernel (mu : Fin d → ℝ) (l nu : ℝ) (S : Matrix (Fin d) (Fin d) ℝ)
    (m : Fin d → ℝ) (W : Matrix (Fin d) (Fin d) ℝ) : ℝ :=
  wishartDensity nu S W * (W.det ^ (1 / 2 : ℝ) * mvNormalKernel mu (l • W) m)

/-- A function of a vector has a finite integral. -/
def FinVec (k : (Fin d → ℝ) → ℝ) : Prop := ∫⁻ x, ENNReal.ofReal (k x) < ∞

/-- A function of a positive definite matrix has a finite integral. -/
def FinPosDef (k : Matrix (Fin d) (Fin d) ℝ → ℝ) : Prop :=
  ∫⁻ w in {w : UT d → ℝ | (symOf w).PosDef}, ENNReal.ofReal (k (symOf w)) < ∞

/-- A function of a vector and a positive variance has a finite integral. -/
def FinVecVar (k : (Fin d → ℝ) → ℝ → ℝ) : Prop :=
  ∫⁻ v in Set.Ioi 0, ∫⁻ m, ENNReal.ofReal (k m v) < ∞

/-- A function of a vector and a positive definite matrix has a finite integral. -/
def FinVecPosDef (k : (Fin d → ℝ) → Matrix (Fin d) (Fin d) ℝ → ℝ) : Prop :=
  ∫⁻ w in {w : UT d → ℝ | (symOf w).PosDef}, ∫⁻ m, ENNReal.ofReal (k m (symOf w)) < ∞

/-! ### Proofs -/

theorem schur_quad {T : Matrix (Fin d) (Fin d) ℝ} {τ : ℝ} (hτ : τ ≠ 0) (t : Fin d → ℝ)
    (z : ℝ) (y : Fin d → ℝ) :
    (Fin.cons z y : Fin (d + 1) → ℝ) ⬝ᵥ (border τ t T *ᵥ (Fin.cons z y : Fin (d + 1) → ℝ)) =
      τ * (z + τ⁻¹ * (t ⬝ᵥ y)) ^ 2 + y ⬝ᵥ ((T - τ⁻¹ • vecMulVec t t) *ᵥ y) := by
  rw [border_quad]
  simp only [Fin.cons_zero, Fin.tail_cons]
  rw [sub_mulVec, dotProduct_sub, smul_mulVec, vecMulVec_mulVec, dotProduct_smul, dotProduct_smul]
  simp only [smul_eq_mul, MulOpposite.smul_eq_mul_unop, MulOpposite.unop_op]
  rw [dotProduct_comm y t]
  field_simp
  ring

theorem posDef_border_first {T : Matrix (Fin d) (Fin d) ℝ} (hs : Tᵀ = T) {τ : ℝ} {t : Fin d → ℝ}
    (hτ : 0 < τ) (h : (T - τ⁻¹ • vecMulVec t t).PosDef) : (border τ t T).PosDef := by
  refine PosDef.of_dotProduct_mulVec_pos ?_ fun x hx => ?_
  · rw [IsHermitian, conjTranspose_eq_transpose_of_trivial, border_symm hs]
  · obtain ⟨z, y, rfl⟩ : ∃ (z : ℝ) (y : Fin d → ℝ), x = (Fin.cons z y : Fin (d + 1) → ℝ) :=
      ⟨x 0, Fin.tail x, (Fin.cons_self_tail x).symm⟩
    simp only [star_trivial]
    rw [schur_quad hτ.ne']
    by_cases hy : y = 0
    · subst hy
      have hz : z ≠ 0 := by
        rintro rfl
        apply hx
        funext i
        refine Fin.cases ?_ (fun i => ?_) i <;> simp
      simp only [dotProduct_zero, mulVec_zero, mul_zero, add_zero]
      positivity
    · have h1 := h.dotProduct_mulVec_pos hy
      simp only [star_trivial] at h1
      have h2 : 0 ≤ τ * (z + τ⁻¹ * (t ⬝ᵥ y)) ^ 2 := by positivity
      linarith

theorem lintegral_line_top {τ s q : ℝ} (hτ : τ ≤ 0) :
    ∫⁻ z : ℝ, ENNReal.ofReal (exp (-((τ * z ^ 2 + 2 * z * s + q) / 2))) = ∞ := by
  obtain ⟨S, hS, hv, hle⟩ : ∃ S : Set ℝ, MeasurableSet S ∧ volume S = ∞ ∧ ∀ z ∈ S, z * s ≤ 0 := by
    rcases le_total 0 s with h | h
    · exact ⟨Set.Iio 0, measurableSet_Iio, by simp, fun z hz =>
        mul_nonpos_of_nonpos_of_nonneg (le_of_lt hz) h⟩
    · exact ⟨Set.Ioi 0, measurableSet_Ioi, by simp, fun z hz =>
        mul_nonpos_of_nonneg_of_nonpos (le_of_lt hz) h⟩
  refine top_le_iff.1 ?_
  calc (∞ : ℝ≥0∞) = ∫⁻ _ in S, ENNReal.ofReal (exp (-(q / 2))) := by
        rw [setLIntegral_const, hv, ENNReal.mul_top (by simpa using exp_pos _)]
    _ ≤ ∫⁻ z in S, ENNReal.ofReal (exp (-((τ * z ^ 2 + 2 * z * s + q) / 2))) := by
        refine setLIntegral_mono' hS fun z hz => ENNReal.ofReal_le_ofReal (exp_le_exp.2 ?_)
        have := hle z hz
        nlinarith [mul_nonpos_of_nonpos_of_nonneg hτ (sq_nonneg z)]
    _ ≤ _ := setLIntegral_le_lintegral _ _

theorem lintegral_cons_inner (F : (Fin (d + 1) → ℝ) → ℝ≥0∞) (hF : Measurable F) :
    ∫⁻ x, F x = ∫⁻ y : Fin d → ℝ, ∫⁻ z : ℝ, F (Fin.cons z y) := by
  have hm := (volume_preserving_piFinSuccAbove (fun _ : Fin (d + 1) => ℝ) 0).symm
  have h := hm.lintegral_comp_emb (MeasurableEquiv.measurableEmbedding _) F
  rw [← h, Measure.volume_eq_prod, lintegral_prod_symm]
  · refine lintegral_congr fun y => lintegral_congr fun z => ?_
    congr 1
    simp [MeasurableEquiv.piFinSuccAbove_symm_apply, Fin.insertNthEquiv, Fin.insertNth_zero']
  · exact (hF.comp (MeasurableEquiv.measurable _)).aemeasurable

theorem measurable_mvNormalKernel (mu : Fin d → ℝ) (P : Matrix (Fin d) (Fin d) ℝ) :
    Measurable fun x => ENNReal.ofReal (mvNormalKernel mu P x) := by
  have h : Continuous fun x : Fin d → ℝ => (x - mu) ⬝ᵥ (P *ᵥ (x - mu)) :=
    (continuous_id.sub continuous_const).dotProduct
      (continuous_const.matrix_mulVec (continuous_id.sub continuous_const))
  have hm := h.measurable
  unfold mvNormalKernel
  fun_prop

theorem lintegral_mvNormalKernel_zero (mu : Fin d → ℝ) (P : Matrix (Fin d) (Fin d) ℝ) :
    ∫⁻ x, ENNReal.ofReal (mvNormalKernel mu P x) = ∫⁻ x, ENNReal.ofReal (mvNormalKernel 0 P x) := by
  rw [← lintegral_sub_right_eq_self (fun x => ENNReal.ofReal (mvNormalKernel 0 P x)) mu]
  simp [mvNormalKernel]

theorem lintegral_mvNormalKernel (mu : Fin d → ℝ) {P : Matrix (Fin d) (Fin d) ℝ} (hP : P.PosDef) :
    ∫⁻ x, ENNReal.ofReal (mvNormalKernel mu P x) =
      ENNReal.ofReal (exp ((d / 2) * log (2 * π) - (1 / 2) * log P.det)) := by
  have e : ∀ x, ENNReal.ofReal (mvNormalKernel mu P x) =
      ENNReal.ofReal (exp ((d / 2) * log (2 * π) - (1 / 2) * log P.det)) *
        ENNReal.ofReal (exp (stanMultiNormalPrecLpdf x mu P)) := by
    intro x
    rw [← ENNReal.ofReal_mul (exp_pos _).le, ← exp_add, mvNormalKernel, stanMultiNormalPrecLpdf]
    congr 2
    ring
  rw [lintegral_congr e, lintegral_const_mul' _ _ ENNReal.ofReal_ne_top, lintegral_multiNormal _ hP,
    mul_one]

theorem mul_lt_top_iff_right {c x : ℝ≥0∞} (h0 : c ≠ 0) (ht : c ≠ ∞) : c * x < ∞ ↔ x < ∞ := by
  constructor
  · intro h
    by_contra htop
    rw [not_lt, top_le_iff] at htop
    rw [htop, ENNReal.mul_top h0] at h
    exact lt_irrefl _ h
  · exact fun h => ENNReal.mul_lt_top ht.lt_top h

theorem ofReal_exp_ne_zero (x : ℝ) : ENNReal.ofReal (exp x) ≠ 0 := by simpa using exp_pos x

theorem posDef_of_finVec : ∀ (d : ℕ) (P : Matrix (Fin d) (Fin d) ℝ), Pᵀ = P →
    ∫⁻ x, ENNReal.ofReal (mvNormalKernel 0 P x) < ∞ → P.PosDef := by
  intro d
  induction d with
  | zero =>
    intro P _ _
    exact PosDef.of_dotProduct_mulVec_pos (by ext i; exact i.elim0) fun x hx =>
      absurd (Subsingleton.elim x 0) hx
  | succ d ih =>
    intro P hP h
    obtain ⟨τ, t, T, hs, rfl⟩ : ∃ τ t T, Tᵀ = T ∧ P = border τ t T :=
      ⟨_, _, _, by rw [transpose_submatrix, hP], eq_border hP⟩
    rw [lintegral_cons_inner _ (measurable_mvNormalKernel _ _)] at h
    by_cases hτ : 0 < τ
    · refine posDef_border_first hs hτ (ih _ ?_ ?_)
      · rw [transpose_sub, hs, transpose_smul, transpose_vecMulVec]
      · have e : ∀ y : Fin d → ℝ, ∫⁻ z : ℝ, ENNReal.ofReal
            (mvNormalKernel 0 (border τ t T) (Fin.cons z y)) =
            (∫⁻ z : ℝ, ENNReal.ofReal (normalKernel 0 τ⁻¹ z)) *
              ENNReal.ofReal (mvNormalKernel 0 (T - τ⁻¹ • vecMulVec t t) y) := by
          intro y
          rw [← lintegral_mul_const' _ _ ENNReal.ofReal_ne_top,
            ← lintegral_add_right_eq_self (fun z => ENNReal.ofReal (normalKernel 0 τ⁻¹ z) * _)
              (τ⁻¹ * (t ⬝ᵥ y))]
          refine lintegral_congr fun z => ?_
          rw [mvNormalKernel, mvNormalKernel, normalKernel, ← ENNReal.ofReal_mul (exp_pos _).le,
            ← exp_add]
          simp only [sub_zero]
          rw [schur_quad hτ.ne']
          congr 2
          field_simp
          ring
        rw [lintegral_congr e, lintegral_const_mul _ (measurable_mvNormalKernel _ _)] at h
        refine (mul_lt_top_iff_right ?_ ?_).1 h
        · exact lintegral_normalKernel_ne_zero _ _
        · exact ((finLine_normal 0 τ⁻¹).2 (by positivity)).ne
    · exfalso
      have e : ∀ y : Fin d → ℝ, ∫⁻ z : ℝ, ENNReal.ofReal
            (mvNormalKernel 0 (border τ t T) (Fin.cons z y)) = ∞ := by
        intro y
        rw [← lintegral_line_top (τ := τ) (s := t ⬝ᵥ y) (q := y ⬝ᵥ (T *ᵥ y)) (not_lt.1 hτ)]
        refine lintegral_congr fun z => ?_
        rw [mvNormalKernel, sub_zero, border_quad]
        simp only [Fin.cons_zero, Fin.tail_cons]
      rw [lintegral_congr e, lintegral_const, ENNReal.top_mul] at h
      · exact lt_irrefl _ h
      · exact NeZero.ne _

theorem finVec_mvNormal (mu : Fin d → ℝ) {P : Matrix (Fin d) (Fin d) ℝ} (hP : Pᵀ = P) :
    FinVec (mvNormalKernel mu P) ↔ P.PosDef := by
  constructor
  · intro h
    unfold FinVec at h
    rw [lintegral_mvNormalKernel_zero] at h
    exact posDef_of_finVec d P hP h
  · intro h
    unfold FinVec
    rw [lintegral_mvNormalKernel _ h]
    exact ENNReal.ofReal_lt_top

theorem posDef_inv_iff (hd : 0 < d) {S : Matrix (Fin d) (Fin d) ℝ} : S⁻¹.PosDef ↔ S.PosDef := by
  constructor
  · intro h
    by_cases hu : IsUnit S.det
    · have := h.inv
      rwa [nonsing_inv_nonsing_inv _ hu] at this
    · rw [nonsing_inv_apply_not_isUnit _ hu] at h
      have := h.dotProduct_mulVec_pos (x := Pi.single ⟨0, hd⟩ 1) (by simp)
      simp at this
  · exact fun h => h.inv

theorem volume_posDef_ne_zero : volume {w : UT d → ℝ | (symOf w).PosDef} ≠ 0 := by
  intro h0
  have h := lintegral_wishartKernel d d (1 : Matrix (Fin d) (Fin d) ℝ) PosDef.one (by linarith)
  have e : ∫⁻ w : UT d → ℝ, wishartKernel (d : ℝ) 1 (symOf w) =
      ∫⁻ w in {w : UT d → ℝ | (symOf w).PosDef}, wishartKernel (d : ℝ) 1 (symOf w) := by
    rw [← lintegral_indicator measurableSet_posDef]
    refine lintegral_congr fun w => ?_
    by_cases hw : (symOf w).PosDef
    · rw [Set.indicator_of_mem (show w ∈ {w : UT d → ℝ | (symOf w).PosDef} from hw)]
    · rw [Set.indicator_of_notMem (show w ∉ {w : UT d → ℝ | (symOf w).PosDef} from hw),
        wishartKernel_neg hw]
  rw [e, setLIntegral_measure_zero _ _ h0] at h
  exact ofReal_exp_ne_zero _ h.symm

theorem lintegral_corner_gen {A : Matrix (Fin d) (Fin d) ℝ} (hA : A.PosDef) (nu τ : ℝ)
    (t b : Fin d → ℝ) (T : Matrix (Fin d) (Fin d) ℝ) :
    ∫⁻ c : ℝ, wishartKernel nu (border τ t T) (border c b A) =
      ENNReal.ofReal (exp (((nu - d - 2) / 2) * log A.det -
        (1 / 2) * (τ * (b ⬝ᵥ (A⁻¹ *ᵥ b)) + 2 * (t ⬝ᵥ b) + (T * A).trace))) *
      ∫⁻ s in Set.Ioi 0, ENNReal.ofReal (gammaKernel ((nu - d) / 2) (τ / 2) s) := by
  obtain ⟨q, hq⟩ : ∃ q, q = b ⬝ᵥ (A⁻¹ *ᵥ b) := ⟨_, rfl⟩
  obtain ⟨E, hE⟩ : ∃ E, E = ((nu - d - 2) / 2) * log A.det -
        (1 / 2) * (τ * q + 2 * (t ⬝ᵥ b) + (T * A).trace) := ⟨_, rfl⟩
  rw [← hq, ← hE]
  have hs := PosDef.symm_real hA
  have e : ∀ c : ℝ, wishartKernel nu (border τ t T) (border c b A) =
      (fun s => (Set.Ioi (0 : ℝ)).indicator (fun s => ENNReal.ofReal (exp E) *
        ENNReal.ofReal (gammaKernel ((nu - d) / 2) (τ / 2) s)) s) (c - q) := by
    intro c
    by_cases hc : q < c
    · have hW : (border c b A).PosDef := (posDef_border hs c b).2 ⟨hA, hq ▸ hc⟩
      have hsc : 0 < c - q := by linarith
      rw [wishartKernel_pos hW]
      simp only [Set.indicator_of_mem (show c - q ∈ Set.Ioi (0 : ℝ) from hsc)]
      rw [← ENNReal.ofReal_mul (exp_pos _).le, gammaKernel, rpow_def_of_pos hsc, ← exp_add,
        ← exp_add, det_border hA, trace_border, ← hq, log_mul hA.det_pos.ne' hsc.ne', hE]
      congr 2
      push_cast
      ring
    · have hW : ¬ (border c b A).PosDef := fun h => hc (hq ▸ ((posDef_border hs c b).1 h).2)
      rw [wishartKernel_neg hW]
      simp only [Set.indicator_of_notMem (show c - q ∉ Set.Ioi (0 : ℝ) by
        simp only [Set.mem_Ioi]; linarith)]
  rw [lintegral_congr e, lintegral_sub_right_eq_self (fun s => (Set.Ioi (0 : ℝ)).indicator
    (fun s => ENNReal.ofReal (exp E) *
        ENNReal.ofReal (gammaKernel ((nu - d) / 2) (τ / 2) s)) s) q,
    lintegral_indicator measurableSet_Ioi, lintegral_const_mul' _ _ ENNReal.ofReal_ne_top]

/-- The Wishart kernel has a finite integral only for positive definite matrices and degrees of
freedom above dimension minus one. -/
theorem posDef_of_finWishart : ∀ (d : ℕ) (nu : ℝ) (T : Matrix (Fin d) (Fin d) ℝ), Tᵀ = T →
    ∫⁻ w : UT d → ℝ, wishartKernel nu T (symOf w) < ∞ → T.PosDef ∧ (0 < d → (d : ℝ) - 1 < nu) := by
  intro d
  induction d with
  | zero =>
    intro nu T _ _
    exact ⟨PosDef.of_dotProduct_mulVec_pos (by ext i; exact i.elim0) fun x hx =>
        absurd (Subsingleton.elim x 0) hx, fun h => absurd h (lt_irrefl _)⟩
  | succ d ih =>
    intro nu T hTs h
    obtain ⟨τ, t, T', hs', hTe⟩ : ∃ τ t T', T'ᵀ = T' ∧ T = border τ t T' :=
      ⟨_, _, _, by rw [transpose_submatrix, hTs], eq_border hTs⟩
    subst hTe
    rw [lintegral_symOf_succ (measurable_wishartKernel nu _)] at h
    by_cases hg : FinPos (gammaKernel ((nu - d) / 2) (τ / 2))
    · obtain ⟨h1, h2⟩ := (finPos_gamma _ _).1 hg
      have hnu : (d : ℝ) < nu := by linarith
      have hτ : 0 < τ := by linarith
      obtain ⟨C, hC⟩ : ∃ C, C = nu / 2 * log 2 + (d / 2) * log π + log (Gamma ((nu - d) / 2)) -
        nu / 2 * log τ := ⟨_, rfl⟩
      have e : ∀ a : UT d → ℝ, ∫⁻ b : Fin d → ℝ, ∫⁻ c : ℝ,
          wishartKernel nu (border τ t T') (border c b (symOf a)) =
          ENNReal.ofReal (exp C) * wishartKernel nu (T' - τ⁻¹ • vecMulVec t t) (symOf a) := by
        intro a
        by_cases hA : (symOf a).PosDef
        · have e2 : ∀ b : Fin d → ℝ, ∫⁻ c : ℝ,
              wishartKernel nu (border τ t T') (border c b (symOf a)) =
              (ENNReal.ofReal (exp C) * wishartKernel nu (T' - τ⁻¹ • vecMulVec t t) (symOf a)) *
              ENNReal.ofReal (exp (stanMultiNormalPrecLpdf b (-(τ⁻¹ • (symOf a *ᵥ t)))
                (τ • (symOf a)⁻¹))) := by
            intro b
            rw [lintegral_corner hA hτ hnu, wishart_row hA hτ, wishartKernel_pos hA,
              ← ENNReal.ofReal_mul (exp_pos _).le, ← ENNReal.ofReal_mul
                (mul_pos (exp_pos _) (exp_pos _)).le, ← exp_add, ← exp_add, hC]
          have hm : Measurable fun b => ENNReal.ofReal (exp (stanMultiNormalPrecLpdf b
              (-(τ⁻¹ • (symOf a *ᵥ t))) (τ • (symOf a)⁻¹))) :=
            ENNReal.measurable_ofReal.comp (Real.measurable_exp.comp
              (measurable_stanMultiNormalPrecLpdf _ _))
          rw [lintegral_congr e2, lintegral_const_mul _ hm,
            lintegral_multiNormal _ (hA.inv.smul hτ), mul_one]
        · rw [wishartKernel_neg hA, mul_zero]
          have e2 : ∀ (b : Fin d → ℝ) (c : ℝ),
              wishartKernel nu (border τ t T') (border c b (symOf a)) = 0 := fun b c =>
            wishartKernel_neg fun h => hA ((posDef_border (symOf_symm a) c b).1 h).1
          simp only [e2, lintegral_zero]
      rw [lintegral_congr e, lintegral_const_mul' _ _ ENNReal.ofReal_ne_top] at h
      have h' := (mul_lt_top_iff_right (ofReal_exp_ne_zero _) ENNReal.ofReal_ne_top).1 h
      obtain ⟨hS, -⟩ := ih nu _ (by rw [transpose_sub, hs', transpose_smul, transpose_vecMulVec]) h'
      exact ⟨posDef_border_first hs' hτ hS, fun _ => by push_cast; linarith⟩
    · exfalso
      have hg' : ∫⁻ s in Set.Ioi 0, ENNReal.ofReal (gammaKernel ((nu - d) / 2) (τ / 2) s) = ∞ := by
        rwa [FinPos, not_lt, top_le_iff] at hg
      have e : ∀ a ∈ {a : UT d → ℝ | (symOf a).PosDef}, ∫⁻ b : Fin d → ℝ, ∫⁻ c : ℝ,
          wishartKernel nu (border τ t T') (border c b (symOf a)) = ∞ := by
        intro a ha
        have e2 : ∀ b : Fin d → ℝ, ∫⁻ c : ℝ,
            wishartKernel nu (border τ t T') (border c b (symOf a)) = ∞ := by
          intro b
          rw [lintegral_corner_gen ha, hg', ENNReal.mul_top (ofReal_exp_ne_zero _)]
        rw [lintegral_congr e2, lintegral_const, ENNReal.top_mul (NeZero.ne _)]
      have h2 := lt_of_le_of_lt (setLIntegral_le_lintegral {a : UT d → ℝ | (symOf a).PosDef} _) h
      rw [setLIntegral_congr_fun measurableSet_posDef e, setLIntegral_const,
        ENNReal.top_mul volume_posDef_ne_zero] at h2
      exact lt_irrefl _ h2

theorem lintegral_wishartDensity (nu : ℝ) (S : Matrix (Fin d) (Fin d) ℝ) :
    ∫⁻ w in {w : UT d → ℝ | (symOf w).PosDef}, ENNReal.ofReal (wishartDensity nu S (symOf w)) =
      ∫⁻ w : UT d → ℝ, wishartKernel nu S⁻¹ (symOf w) := by
  rw [← lintegral_indicator measurableSet_posDef]
  refine lintegral_congr fun w => ?_
  by_cases hw : (symOf w).PosDef
  · rw [Set.indicator_of_mem (show w ∈ {w : UT d → ℝ | (symOf w).PosDef} from hw),
      wishartKernel_pos hw, wishartDensity, rpow_def_of_pos hw.det_pos, ← exp_add]
    congr 2
    ring
  · rw [Set.indicator_of_notMem (show w ∉ {w : UT d → ℝ | (symOf w).PosDef} from hw),
      wishartKernel_neg hw]

theorem finPosDef_wishart (hd : 0 < d) (nu : ℝ) {S : Matrix (Fin d) (Fin d) ℝ} (hs : Sᵀ = S) :
    FinPosDef (wishartDensity nu S) ↔ S.PosDef ∧ (d : ℝ) - 1 < nu := by
  unfold FinPosDef
  rw [lintegral_wishartDensity, ← posDef_inv_iff hd]
  constructor
  · intro h
    have := posDef_of_finWishart d nu S⁻¹ (by rw [transpose_nonsing_inv, hs]) h
    exact ⟨this.1, this.2 hd⟩
  · rintro ⟨h1, h2⟩
    rw [lintegral_wishartKernel d nu _ h1 h2]
    exact ENNReal.ofReal_lt_top

theorem finVecVar_mnig (hd : 0 < d) (mu : Fin d → ℝ) {L : Matrix (Fin d) (Fin d) ℝ} (hL : Lᵀ = L)
    (a b : ℝ) : FinVecVar (mnigKernel mu L a b) ↔ L.PosDef ∧ 0 < a ∧ 0 < b := by
  have split : ∀ v : ℝ, 0 < v → ∫⁻ m, ENNReal.ofReal (mnigKernel mu L a b m v) =
      ENNReal.ofReal (invGammaKernel a b v) * ENNReal.ofReal (v ^ (-(d / 2) : ℝ)) *
        ∫⁻ m, ENNReal.ofReal (mvNormalKernel mu (v⁻¹ • L) m) := by
    intro v hv
    rw [← lintegral_const_mul' _ _ (ENNReal.mul_ne_top ENNReal.ofReal_ne_top ENNReal.ofReal_ne_top)]
    refine lintegral_congr fun m => ?_
    rw [mnigKernel, ENNReal.ofReal_mul (invGammaKernel_pos hv).le,
      ENNReal.ofReal_mul (rpow_nonneg hv.le _), mul_assoc]
  unfold FinVecVar
  by_cases hP : L.PosDef
  · have inner : ∀ v : ℝ, 0 < v → ∫⁻ m, ENNReal.ofReal (mnigKernel mu L a b m v) =
        ENNReal.ofReal (exp ((d / 2) * log (2 * π) - (1 / 2) * log L.det)) *
          ENNReal.ofReal (invGammaKernel a b v) := by
      intro v hv
      rw [split v hv, lintegral_mvNormalKernel _ (hP.smul (inv_pos.2 hv)), mul_assoc,
        ← ENNReal.ofReal_mul (rpow_nonneg hv.le _), mul_comm]
      congr 2
      rw [rpow_def_of_pos hv, ← exp_add, det_smul, Fintype.card_fin,
        log_mul (by positivity) hP.det_pos.ne', log_pow, log_inv]
      congr 1
      ring
    rw [setLIntegral_congr_fun measurableSet_Ioi (fun v hv => inner v hv),
      lintegral_const_mul' _ _ ENNReal.ofReal_ne_top,
      mul_lt_top_iff_right (ofReal_exp_ne_zero _) ENNReal.ofReal_ne_top]
    change FinPos (invGammaKernel a b) ↔ _
    rw [finPos_invGamma]
    simp [hP]
  · constructor
    · intro h
      exfalso
      refine absurd (lintegral_top_of_pos fun v hv => ?_) h.ne
      have hn : ¬ (v⁻¹ • L).PosDef := fun h => hP (by
        have := h.smul hv
        rwa [smul_smul, mul_inv_cancel₀ hv.ne', one_smul] at this)
      have h1 : ∫⁻ m, ENNReal.ofReal (mvNormalKernel mu (v⁻¹ • L) m) = ∞ := by
        have := mt (finVec_mvNormal mu (P := v⁻¹ • L) (by rw [transpose_smul, hL])).1 hn
        rwa [FinVec, not_lt, top_le_iff] at this
      rw [split v hv, h1]
      refine ENNReal.mul_top (mul_ne_zero ?_ ?_)
      · simpa using invGammaKernel_pos hv
      · simpa using rpow_pos_of_pos hv _
    · rintro ⟨h, -⟩
      exact absurd h hP

theorem wishartDensity_pos {nu : ℝ} {S W : Matrix (Fin d) (Fin d) ℝ} (hW : W.PosDef) :
    0 < wishartDensity nu S W := mul_pos (rpow_pos_of_pos hW.det_pos _) (exp_pos _)

theorem finVecPosDef_nw (hd : 0 < d) (mu : Fin d → ℝ) (l nu : ℝ) {S : Matrix (Fin d) (Fin d) ℝ}
    (hs : Sᵀ = S) : FinVecPosDef (nwKernel mu l nu S) ↔ 0 < l ∧ (d : ℝ) - 1 < nu ∧ S.PosDef := by
  have split : ∀ W : Matrix (Fin d) (Fin d) ℝ, W.PosDef →
      ∫⁻ m, ENNReal.ofReal (nwKernel mu l nu S m W) =
      ENNReal.ofReal (wishartDensity nu S W) * ENNReal.ofReal (W.det ^ (1 / 2 : ℝ)) *
        ∫⁻ m, ENNReal.ofReal (mvNormalKernel mu (l • W) m) := by
    intro W hW
    rw [← lintegral_const_mul' _ _ (ENNReal.mul_ne_top ENNReal.ofReal_ne_top ENNReal.ofReal_ne_top)]
    refine lintegral_congr fun m => ?_
    rw [nwKernel, ENNReal.ofReal_mul (wishartDensity_pos hW).le,
      ENNReal.ofReal_mul (rpow_nonneg hW.det_pos.le _), mul_assoc]
  unfold FinVecPosDef
  by_cases hl : 0 < l
  · have inner : ∀ w ∈ {w : UT d → ℝ | (symOf w).PosDef},
        ∫⁻ m, ENNReal.ofReal (nwKernel mu l nu S m (symOf w)) =
        ENNReal.ofReal (exp ((d / 2) * log (2 * π) - (d / 2) * log l)) *
          ENNReal.ofReal (wishartDensity nu S (symOf w)) := by
      intro w hw
      have hw : (symOf w).PosDef := hw
      rw [split _ hw, lintegral_mvNormalKernel _ (hw.smul hl), mul_assoc,
        ← ENNReal.ofReal_mul (rpow_nonneg hw.det_pos.le _), mul_comm]
      congr 2
      rw [rpow_def_of_pos hw.det_pos, ← exp_add, det_smul, Fintype.card_fin,
        log_mul (by positivity) hw.det_pos.ne', log_pow]
      congr 1
      ring
    rw [setLIntegral_congr_fun measurableSet_posDef inner,
      lintegral_const_mul' _ _ ENNReal.ofReal_ne_top,
      mul_lt_top_iff_right (ofReal_exp_ne_zero _) ENNReal.ofReal_ne_top]
    change FinPosDef (wishartDensity nu S) ↔ _
    rw [finPosDef_wishart hd nu hs]
    simp [hl, and_comm]
  · constructor
    · intro h
      exfalso
      have e : ∀ w ∈ {w : UT d → ℝ | (symOf w).PosDef},
          ∫⁻ m, ENNReal.ofReal (nwKernel mu l nu S m (symOf w)) = ∞ := by
        intro w hw
        have hw : (symOf w).PosDef := hw
        have hn : ¬ (l • symOf w).PosDef := fun h => by
          have hx : (Pi.single ⟨0, hd⟩ 1 : Fin d → ℝ) ≠ 0 := by simp
          have h1 := h.dotProduct_mulVec_pos hx
          have h2 := hw.dotProduct_mulVec_pos hx
          rw [smul_mulVec, dotProduct_smul, smul_eq_mul] at h1
          exact absurd (mul_nonpos_of_nonpos_of_nonneg (not_lt.1 hl) h2.le) (not_le.2 h1)
        have h1 : ∫⁻ m, ENNReal.ofReal (mvNormalKernel mu (l • symOf w) m) = ∞ := by
          have := mt (finVec_mvNormal mu (P := l • symOf w)
            (by rw [transpose_smul, symOf_symm])).1 hn
          rwa [FinVec, not_lt, top_le_iff] at this
        rw [split _ hw, h1]
        refine ENNReal.mul_top (mul_ne_zero ?_ ?_)
        · simpa using wishartDensity_pos hw
        · simpa using rpow_pos_of_pos hw.det_pos _
      rw [setLIntegral_congr_fun measurableSet_posDef e, setLIntegral_const,
        ENNReal.top_mul volume_posDef_ne_zero] at h
      exact lt_irrefl _ h
    · rintro ⟨h, -⟩
      exact absurd h hl

end Bayesmix.Hierarchies
