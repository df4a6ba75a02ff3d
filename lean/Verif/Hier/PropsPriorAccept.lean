import Verif.Hier.ProperKernelMv

/-!
# C147: prior models accept exactly proper priors
-/

namespace Bayesmix.Hierarchies

open Real MeasureTheory Matrix
open scoped ENNReal

/-- **C147, fixed normal-inverse-Gamma and normal times inverse-Gamma priors, and the Gamma prior
of the example.** Initialization accepts exactly the proper priors, and then has the given
hyperparameters; it throws for the others. -/
theorem c147_fixed :
    (∀ mu l a b : ℝ,
      (FinMeanVar (nigKernel mu l a b) → nigInit (.fixed mu l a b) = .ok ⟨mu, l, a, b⟩) ∧
      (¬ FinMeanVar (nigKernel mu l a b) → nigInit (.fixed mu l a b) = .error .throw)) ∧
    (∀ mu s2 a b : ℝ,
      (FinMeanVar (fun m v => normalKernel mu s2 m * invGammaKernel a b v) →
        nxigInit (.fixed mu s2 a b) = .ok ⟨mu, s2, a, b⟩) ∧
      (¬ FinMeanVar (fun m v => normalKernel mu s2 m * invGammaKernel a b v) →
        nxigInit (.fixed mu s2 a b) = .error .throw)) ∧
    (∀ shape a b : ℝ,
      (0 < shape ∧ FinPos (gammaKernel a b) → gammaInit shape a b = .ok ⟨a, b⟩) ∧
      (¬ (0 < shape ∧ FinPos (gammaKernel a b)) → gammaInit shape a b = .error .throw)) := by
  refine ⟨fun mu l a b => ?_, fun mu s2 a b => ?_, fun s a b => ?_⟩
  · rw [finMeanVar_nig]
    constructor
    · rintro ⟨h1, h2, h3⟩
      exact nigInit_fixed h1 h2 h3
    · intro h
      simp only [nigInit]
      split_ifs with h1 h2 h3 <;> first | rfl | exact absurd ⟨not_le.1 h1, not_le.1 h2, not_le.1 h3⟩ h
  · rw [finMeanVar_prod]
    constructor
    · rintro ⟨h1, h2, h3⟩
      simp [nxigInit, not_le.2 h1, not_le.2 h2, not_le.2 h3]
    · intro h
      simp only [nxigInit]
      split_ifs with h1 h2 h3 <;> first | rfl | exact absurd ⟨not_le.1 h1, not_le.1 h2, not_le.1 h3⟩ h
  · rw [finPos_gamma]
    constructor
    · rintro ⟨h1, h2, h3⟩
      exact gammaInit_of_pos h1 h2 h3
    · intro h
      simp only [gammaInit]
      split_ifs with h1 h2 h3 <;> first | rfl | exact absurd ⟨not_le.1 h1, not_le.1 h2, not_le.1 h3⟩ h

example : nigInit (.fixed 5 (-1) 2 2) = .error .throw ∧
    nigInit (.fixed 5 (1 / 10) 2 2) = .ok ⟨5, 1 / 10, 2, 2⟩ :=
  ⟨(c147_fixed.1 5 (-1) 2 2).2 (by rw [finMeanVar_nig]; norm_num),
    (c147_fixed.1 5 (1 / 10) 2 2).1 (by rw [finMeanVar_nig]; norm_num)⟩

/-- **C147, priors on mean, scaling and scale of a normal-inverse-Gamma prior.** Accepted exactly
if the three priors are proper and so are the normal-inverse-Gamma priors with all scalings and
scales that they can take. -/
theorem c147_ngg (mu00 sig200 alpha00 beta00 a00 b00 shape : ℝ) :
    let valid : Prop := FinLine (normalKernel mu00 sig200) ∧ FinPos (gammaKernel alpha00 beta00) ∧
      FinPos (gammaKernel a00 b00) ∧
      ∀ mu l b : ℝ, 0 < l → 0 < b → FinMeanVar (nigKernel mu l shape b)
    (valid → nigInit (.ngg mu00 sig200 alpha00 beta00 a00 b00 shape) =
      .ok ⟨mu00, alpha00 / beta00, shape, a00 / b00⟩) ∧
    (¬ valid → nigInit (.ngg mu00 sig200 alpha00 beta00 a00 b00 shape) = .error .throw) := by
  intro valid
  have hv : valid ↔ 0 < sig200 ∧ (0 < alpha00 ∧ 0 < beta00) ∧ (0 < a00 ∧ 0 < b00) ∧ 0 < shape := by
    simp only [valid, finLine_normal, finPos_gamma, finMeanVar_nig]
    constructor
    · rintro ⟨h1, h2, h3, h4⟩
      exact ⟨h1, h2, h3, (h4 0 1 1 one_pos one_pos).2.1⟩
    · rintro ⟨h1, h2, h3, h4⟩
      exact ⟨h1, h2, h3, fun _ _ _ hl hb => ⟨hl, h4, hb⟩⟩
  rw [hv]
  constructor
  · rintro ⟨h1, ⟨h2, h3⟩, ⟨h4, h5⟩, h6⟩
    simp [nigInit, not_le.2 h1, not_le.2 h2, not_le.2 h3, not_le.2 h4, not_le.2 h5, not_le.2 h6]
  · intro h
    simp only [nigInit]
    split_ifs with h1 h2 h3 h4 h5 h6 <;> first
      | rfl
      | exact absurd ⟨not_le.1 h1, ⟨not_le.1 h2, not_le.1 h3⟩, ⟨not_le.1 h4, not_le.1 h5⟩,
          not_le.1 h6⟩ h

example : nigInit (.ngg 0 2 1 2 3 4 5) = .ok ⟨0, 1 / 2, 5, 3 / 4⟩ :=
  (c147_ngg 0 2 1 2 3 4 5).1 ⟨(finLine_normal _ _).2 (by norm_num),
    (finPos_gamma _ _).2 (by norm_num), (finPos_gamma _ _).2 (by norm_num),
    fun _ _ _ hl hb => (finMeanVar_nig _ _ _ _).2 ⟨hl, by norm_num, hb⟩⟩

/-- **C147, prior on the mean of a normal-inverse-Gamma prior: what holds.** If the prior of the
mean is proper then exactly the proper priors are accepted; proper priors are always accepted. -/
theorem c147_normal_mean_partial (mu00 sig200 l a b : ℝ) :
    ((∀ mu, FinMeanVar (nigKernel mu l a b)) →
      nigInit (.normalMean mu00 sig200 l a b) = .ok ⟨mu00, l, a, b⟩) ∧
    (¬ (∀ mu, FinMeanVar (nigKernel mu l a b)) →
      nigInit (.normalMean mu00 sig200 l a b) = .error .throw) := by
  simp only [finMeanVar_nig, forall_const]
  constructor
  · rintro ⟨h1, h2, h3⟩
    simp [nigInit, not_le.2 h1, not_le.2 h2, not_le.2 h3]
  · intro h
    simp only [nigInit]
    split_ifs with h1 h2 h3 <;> first | rfl | exact absurd ⟨not_le.1 h1, not_le.1 h2, not_le.1 h3⟩ h

example : nigInit (.normalMean 0 1 1 0 2) = .error .throw :=
  (c147_normal_mean_partial 0 1 1 0 2).2 fun h => by
    have := (finMeanVar_nig _ _ _ _).1 (h 0)
    norm_num at this

/-- **C147, violated.** The variance of the prior of the mean is not looked at: whatever the rest,
for every variance that is not positive the prior of the mean is improper, and the answer is the
one for variance one. In particular improper priors are accepted. -/
theorem c147_normal_mean_violated (mu00 sig200 l a b : ℝ) (hs : sig200 ≤ 0) :
    ¬ FinLine (normalKernel mu00 sig200) ∧
    nigInit (.normalMean mu00 sig200 l a b) = nigInit (.normalMean mu00 1 l a b) ∧
    (0 < l → 0 < a → 0 < b → nigInit (.normalMean mu00 sig200 l a b) = .ok ⟨mu00, l, a, b⟩) := by
  refine ⟨?_, rfl, fun hl ha hb => ?_⟩
  · rw [finLine_normal]
    exact not_lt.2 hs
  · simp [nigInit, not_le.2 hl, not_le.2 ha, not_le.2 hb]

example : nigInit (.normalMean 3 (-2) 1 2 2) = .ok ⟨3, 1, 2, 2⟩ :=
  (c147_normal_mean_violated 3 (-2) 1 2 2 (by norm_num)).2.2 (by norm_num) (by norm_num)
    (by norm_num)

/-- **C147, factor-analytic prior.** Independent normal means and inverse Gamma noise variances;
at least one factor. -/
theorem c147_fa {p : ℕ} (mutilde beta : Fin p → ℝ) (phi alpha0 : ℝ) (q : ℕ) (hp : 0 < p) :
    let valid : Prop := (∀ j, FinPos (invGammaKernel alpha0 (beta j))) ∧
      (∀ j, FinLine (normalKernel (mutilde j) phi)) ∧ 0 < q
    (valid → faInit mutilde beta phi alpha0 q = .ok ⟨mutilde, beta, phi, alpha0⟩) ∧
    (¬ valid → faInit mutilde beta phi alpha0 q = .error .throw) := by
  intro valid
  have hv : valid ↔ (∀ j, 0 < beta j) ∧ 0 < alpha0 ∧ 0 < phi ∧ 0 < q := by
    simp only [valid, finLine_normal, finPos_invGamma]
    constructor
    · rintro ⟨h1, h2, h3⟩
      exact ⟨fun j => (h1 j).2, (h1 ⟨0, hp⟩).1, h2 ⟨0, hp⟩, h3⟩
    · rintro ⟨h1, h2, h3, h4⟩
      exact ⟨fun j => ⟨h2, h1 j⟩, fun _ => h3, h4⟩
  rw [hv]
  constructor
  · rintro ⟨h1, h2, h3, h4⟩
    have h1' : ¬ ∃ j, beta j ≤ 0 := fun ⟨j, hj⟩ => absurd (h1 j) (not_lt.2 hj)
    simp only [faInit, if_neg h1', if_neg (not_le.2 h2), if_neg (not_le.2 h3), if_neg (not_le.2 h4)]
  · intro h
    simp only [faInit]
    split_ifs with h1 h2 h3 h4 <;> first
      | rfl
      | exact absurd ⟨fun j => not_le.1 fun hj => h1 ⟨j, hj⟩, not_le.1 h2, not_le.1 h3,
          not_le.1 h4⟩ h

example : faInit ![1, 2] ![3, 0] 1 1 2 = .error .throw :=
  (c147_fa ![1, 2] ![3, 0] 1 1 2 (by norm_num)).2 fun h => by
    have := ((finPos_invGamma _ _).1 (h.1 1)).2
    norm_num at this

theorem nwFinish_throw {d : ℕ} {m : Fin d → ℝ} {l nu : ℝ} {s : Matrix (Fin d) (Fin d) ℝ}
    (hs : ¬ s.PosDef) : nwFinish m l nu s = .error .throw := by
  unfold nwFinish inverseSpd
  rw [if_neg hs]
  rfl

theorem checkSpd_throw {d : ℕ} {α : Type} {s : Matrix (Fin d) (Fin d) ℝ} {k : Except Fault α}
    (hs : ¬ s.PosDef) : (do checkSpd s; k) = .error .throw := by
  unfold checkSpd
  rw [if_neg hs]
  rfl

theorem checkSpd_pass {d : ℕ} {α : Type} {s : Matrix (Fin d) (Fin d) ℝ} {k : Except Fault α}
    (hs : s.PosDef) : (do checkSpd s; k) = k := by
  unfold checkSpd
  rw [if_pos hs]
  rfl

/-- The conditions that initialization tests. -/
theorem multivariate_checks {d : ℕ} :
    (∀ (mu : Fin d → ℝ) (L : Matrix (Fin d) (Fin d) ℝ) (a b : ℝ),
      (L.PosDef ∧ 0 < a ∧ 0 < b → mnigInit (.fixed mu L a b) = .ok ⟨mu, L, a, b⟩) ∧
      (¬ (L.PosDef ∧ 0 < a ∧ 0 < b) → mnigInit (.fixed mu L a b) = .error .throw)) ∧
    (∀ (mu : Fin d → ℝ) (l nu : ℝ) (s : Matrix (Fin d) (Fin d) ℝ),
      (0 < l ∧ (d : ℝ) - 1 < nu ∧ s.PosDef → ∃ h, nwInit (.fixed mu l s nu) = .ok h ∧
        h.mean = mu ∧ h.varScaling = l ∧ h.degFree = nu ∧ h.scale = s) ∧
      (¬ (0 < l ∧ (d : ℝ) - 1 < nu ∧ s.PosDef) → nwInit (.fixed mu l s nu) = .error .throw)) ∧
    (∀ (mu : Fin d → ℝ) (S T : Matrix (Fin d) (Fin d) ℝ) (l nu : ℝ),
      (S.PosDef ∧ 0 < l ∧ T.PosDef ∧ (d : ℝ) - 1 < nu →
        nwInit (.normalMean mu S l T nu) = nwInit (.fixed mu l T nu)) ∧
      (¬ (S.PosDef ∧ 0 < l ∧ T.PosDef ∧ (d : ℝ) - 1 < nu) →
        nwInit (.normalMean mu S l T nu) = .error .throw)) := by
  refine ⟨fun mu L a b => ⟨?_, ?_⟩, fun mu l nu s => ⟨?_, ?_⟩, fun mu S T l nu => ⟨?_, ?_⟩⟩
  · rintro ⟨h1, h2, h3⟩
    have e := mnigInit_fixed (m := mu) h1 h2 h3
    exact e
  · intro h
    simp only [mnigInit]
    by_cases h1 : L.PosDef
    · simp only [inverseSpd, checkSpd, if_pos h1]
      change (if a ≤ 0 then _ else _) = _
      split_ifs with h2 h3 <;> first | rfl | exact absurd ⟨h1, not_le.1 h2, not_le.1 h3⟩ h
    · simp only [inverseSpd, if_neg h1]
      rfl
  · rintro ⟨h1, h2, h3⟩
    have e : nwInit (.fixed mu l s nu) = .ok ⟨mu, l, nu, s, s⁻¹, lltU s⟩ := by
      simp only [nwInit]
      rw [if_neg (not_le.2 h1), if_neg (not_le.2 h2), nwFinish_ok h3]
    exact ⟨_, e, rfl, rfl, rfl, rfl⟩
  · intro h
    simp only [nwInit]
    split_ifs with h1 h2
    · rfl
    · rfl
    · exact nwFinish_throw fun h3 => h ⟨not_le.1 h1, not_le.1 h2, h3⟩
  · rintro ⟨h1, h2, h3, h4⟩
    simp only [nwInit]
    rw [checkSpd_pass h1, if_neg (not_le.2 h2), checkSpd_pass h3, if_neg (not_le.2 h2)]
  · intro h
    simp only [nwInit]
    by_cases h1 : S.PosDef
    · rw [checkSpd_pass h1]
      by_cases h2 : l ≤ 0
      · rw [if_pos h2]
      rw [if_neg h2]
      by_cases h3 : T.PosDef
      · rw [checkSpd_pass h3]
        split_ifs with h4
        · rfl
        exact absurd ⟨h1, not_le.1 h2, h3, not_le.1 h4⟩ h
      · exact checkSpd_throw h3
    · exact checkSpd_throw h1

/-- **C147, multivariate priors.** The matrices are symmetric, as a covariance, scale or precision
matrix has to be for the prior to mean anything. For the fixed normal-inverse-Gamma prior of the
linear regression, the fixed Normal-Wishart prior and the Normal-Wishart prior with a normal prior
on its mean, initialization accepts exactly the proper priors, and then has the given
hyperparameters; it throws for the others. -/
theorem c147_multivariate {d : ℕ} (hd : 0 < d) :
    (∀ (mu : Fin d → ℝ) (L : Matrix (Fin d) (Fin d) ℝ) (a b : ℝ), Lᵀ = L →
      (FinVecVar (mnigKernel mu L a b) → mnigInit (.fixed mu L a b) = .ok ⟨mu, L, a, b⟩) ∧
      (¬ FinVecVar (mnigKernel mu L a b) → mnigInit (.fixed mu L a b) = .error .throw)) ∧
    (∀ (mu : Fin d → ℝ) (l nu : ℝ) (s : Matrix (Fin d) (Fin d) ℝ), sᵀ = s →
      (FinVecPosDef (nwKernel mu l nu s) → ∃ h, nwInit (.fixed mu l s nu) = .ok h ∧
        h.mean = mu ∧ h.varScaling = l ∧ h.degFree = nu ∧ h.scale = s) ∧
      (¬ FinVecPosDef (nwKernel mu l nu s) → nwInit (.fixed mu l s nu) = .error .throw)) ∧
    (∀ (mu : Fin d → ℝ) (S T : Matrix (Fin d) (Fin d) ℝ) (l nu : ℝ), Sᵀ = S → Tᵀ = T →
      (FinVec (mvNormalKernel mu S⁻¹) ∧ (∀ m, FinVecPosDef (nwKernel m l nu T)) →
        ∃ h, nwInit (.normalMean mu S l T nu) = .ok h ∧
          h.mean = mu ∧ h.varScaling = l ∧ h.degFree = nu ∧ h.scale = T) ∧
      (¬ (FinVec (mvNormalKernel mu S⁻¹) ∧ ∀ m, FinVecPosDef (nwKernel m l nu T)) →
        nwInit (.normalMean mu S l T nu) = .error .throw)) := by
  have key := multivariate_checks (d := d)
  refine ⟨fun mu L a b hL => ?_, fun mu l nu s hs => ?_, fun mu S T l nu hS hT => ?_⟩
  · rw [finVecVar_mnig hd mu hL]
    exact ⟨fun h => ((key.1 mu L a b).1 h), (key.1 mu L a b).2⟩
  · rw [finVecPosDef_nw hd mu l nu hs]
    exact key.2.1 mu l nu s
  · have hv : (FinVec (mvNormalKernel mu S⁻¹) ∧ ∀ m, FinVecPosDef (nwKernel m l nu T)) ↔
        S.PosDef ∧ 0 < l ∧ T.PosDef ∧ (d : ℝ) - 1 < nu := by
      rw [finVec_mvNormal mu (by rw [transpose_nonsing_inv, hS]), posDef_inv_iff hd]
      simp only [fun m => finVecPosDef_nw hd m l nu hT, forall_const]
      tauto
    rw [hv]
    refine ⟨fun h => ?_, (key.2.2 mu S T l nu).2⟩
    rw [(key.2.2 mu S T l nu).1 h]
    exact (key.2.1 mu l nu T).1 ⟨h.2.1, h.2.2.2, h.2.2.1⟩

example : nwInit (.fixed ![1, 0] 1 !![2, 1; 1, 2] 1) = .error .throw :=
  ((c147_multivariate (by norm_num)).2.1 ![1, 0] 1 1 !![2, 1; 1, 2]
    (PosDef.symm_real exPosDef)).2 fun h => by
      have := ((finVecPosDef_nw (by norm_num) _ _ _ (PosDef.symm_real exPosDef)).1 h).2.1
      norm_num at this

example : mnigInit (.fixed ![1, 0] !![2, 1; 1, 2] 2 3) = .ok ⟨![1, 0], !![2, 1; 1, 2], 2, 3⟩ :=
  ((c147_multivariate (by norm_num)).1 ![1, 0] !![2, 1; 1, 2] 2 3 (PosDef.symm_real exPosDef)).1
    ((finVecVar_mnig (by norm_num) _ (PosDef.symm_real exPosDef) _ _).2
      ⟨exPosDef, by norm_num, by norm_num⟩)

/-- **C147, prior on mean, scaling and scale of a Normal-Wishart prior: what holds.** The scale
matrix has an inverse Wishart prior: its inverse is Wishart, with `nu00` degrees of freedom and
scale matrix `T⁻¹`. Proper priors are accepted. Improper ones are rejected, unless the only reason
is the number of degrees of freedom of the inverse Wishart prior and it is positive. -/
theorem c147_ngiw_partial {d : ℕ} (hd : 0 < d) (mu : Fin d → ℝ) (S T : Matrix (Fin d) (Fin d) ℝ)
    (a b nu00 nu : ℝ) (hS : Sᵀ = S) (hT : Tᵀ = T) :
    let valid : ℝ → Prop := fun nu00 => FinVec (mvNormalKernel mu S⁻¹) ∧ FinPos (gammaKernel a b) ∧
      FinPosDef (wishartDensity nu00 T⁻¹) ∧
      ∀ (m : Fin d → ℝ) (l : ℝ) (s : Matrix (Fin d) (Fin d) ℝ), 0 < l → s.PosDef →
        FinVecPosDef (nwKernel m l nu s)
    (valid nu00 → ∃ h, nwInit (.ngiw mu S a b nu00 T nu) = .ok h ∧ h.mean = mu ∧
      h.varScaling = a / b ∧ h.degFree = nu ∧ h.scale = (1 / (nu00 + d + 1)) • T) ∧
    (¬ valid nu00 → (nu00 ≤ 0 ∨ ∀ n, ¬ valid n) →
      nwInit (.ngiw mu S a b nu00 T nu) = .error .throw) := by
  intro valid
  have hv : ∀ n, valid n ↔ S.PosDef ∧ (0 < a ∧ 0 < b) ∧ (T.PosDef ∧ (d : ℝ) - 1 < n) ∧
      (d : ℝ) - 1 < nu := by
    intro n
    simp only [valid, finPos_gamma]
    rw [finVec_mvNormal mu (by rw [transpose_nonsing_inv, hS]), posDef_inv_iff hd,
      finPosDef_wishart hd n (by rw [transpose_nonsing_inv, hT]), posDef_inv_iff hd]
    refine and_congr_right fun _ => and_congr_right fun _ => and_congr_right fun _ => ?_
    constructor
    · intro h
      exact ((finVecPosDef_nw hd 0 1 nu (by simp)).1 (h 0 1 1 one_pos PosDef.one)).2.1
    · intro h m l s hl hs
      exact (finVecPosDef_nw hd m l nu (PosDef.symm_real hs)).2 ⟨hl, h, hs⟩
  have hd1 : (1 : ℝ) ≤ d := by exact_mod_cast hd
  constructor
  · intro h
    obtain ⟨h1, ⟨h2, h3⟩, ⟨h4, h5⟩, h6⟩ := (hv _).1 h
    have h0 : 0 < nu00 := by linarith
    have hp : (0 : ℝ) < 1 / (nu00 + d + 1) := by positivity
    simp only [nwInit]
    rw [checkSpd_pass h1, if_neg (not_le.2 h2), if_neg (not_le.2 h3), if_neg (not_le.2 h0),
      checkSpd_pass h4, if_neg (not_le.2 h6), nwFinish_ok (h4.smul hp)]
    exact ⟨_, rfl, rfl, rfl, rfl, rfl⟩
  · intro _ h
    simp only [nwInit]
    by_cases h1 : S.PosDef
    · rw [checkSpd_pass h1]
      by_cases h2 : a ≤ 0
      · rw [if_pos h2]
      rw [if_neg h2]
      by_cases h3 : b ≤ 0
      · rw [if_pos h3]
      rw [if_neg h3]
      by_cases h4 : nu00 ≤ 0
      · rw [if_pos h4]
      rw [if_neg h4]
      by_cases h5 : T.PosDef
      · rw [checkSpd_pass h5]
        by_cases h6 : nu ≤ (d : ℝ) - 1
        · rw [if_pos h6]
        · rcases h with h | h
          · exact absurd h h4
          · exact absurd ((hv d).2 ⟨h1, ⟨not_le.1 h2, not_le.1 h3⟩, ⟨h5, by linarith⟩,
              not_le.1 h6⟩) (h d)
      · exact checkSpd_throw h5
    · exact checkSpd_throw h1

example : nwInit (.ngiw ![1, 0] !![2, 1; 1, 2] 1 1 (-1) !![2, 1; 1, 2] 3) = .error .throw :=
  (c147_ngiw_partial (by norm_num) ![1, 0] !![2, 1; 1, 2] !![2, 1; 1, 2] 1 1 (-1) 3
    (PosDef.symm_real exPosDef) (PosDef.symm_real exPosDef)).2 (fun h => by
      have := ((finPosDef_wishart (by norm_num) (-1) (PosDef.symm_real exPosDef.inv)).1 h.2.2.1).2
      norm_num at this) (Or.inl (by norm_num))

/-- **C147, violated by the prior on mean, scaling and scale of a Normal-Wishart prior.** The inverse
Wishart prior of the scale matrix is improper with `d - 1` degrees of freedom or fewer. All
positive numbers are accepted. -/
theorem c147_ngiw_violated {d : ℕ} (mu : Fin d → ℝ) (S T : Matrix (Fin d) (Fin d) ℝ)
    (a b nu00 nu : ℝ) (hS : S.PosDef) (ha : 0 < a) (hb : 0 < b) (hT : T.PosDef)
    (hnu : (d : ℝ) - 1 < nu) (h0 : 0 < nu00) (h1 : nu00 ≤ (d : ℝ) - 1) :
    ¬ FinPosDef (wishartDensity nu00 T⁻¹) ∧
    ∃ h, nwInit (.ngiw mu S a b nu00 T nu) = .ok h ∧ h.mean = mu ∧ h.varScaling = a / b ∧
      h.degFree = nu := by
  have hpos : (0 : ℝ) < 1 / (nu00 + d + 1) := by positivity
  constructor
  · have hd : 0 < d := by
      by_contra h
      have : d = 0 := by omega
      subst this
      norm_num at h1
      linarith
    rw [finPosDef_wishart hd nu00 (PosDef.symm_real hT.inv)]
    exact fun h => absurd h.2 (not_lt.2 h1)
  simp only [nwInit]
  rw [checkSpd_pass hS, if_neg (not_le.2 ha), if_neg (not_le.2 hb), if_neg (not_le.2 h0),
    checkSpd_pass hT, if_neg (not_le.2 hnu), nwFinish_ok (hT.smul hpos)]
  exact ⟨_, rfl, rfl, rfl, rfl⟩

example : ∃ h, nwInit (.ngiw ![1, 0] !![2, 1; 1, 2] 1 1 (1 / 2) !![2, 1; 1, 2] 3) = .ok h ∧
    h.mean = ![1, 0] ∧ h.varScaling = 1 / 1 ∧ h.degFree = 3 :=
  (c147_ngiw_violated _ _ _ _ _ _ _ exPosDef one_pos one_pos exPosDef (by norm_num) (by norm_num)
    (by norm_num)).2

end Bayesmix.Hierarchies
