import Mathlib.LinearAlgebra.Matrix.PosDef
import Verif.Hier.HyperSerial
import Verif.Hier.PropsSerial

/-!
# C127, hyperparameters: a saved state can be restored; C128: empirical hyperparameters
-/

namespace Bayesmix.Hierarchies

open Utils Matrix

/-! ### C127 -/

/-- **C127, Normal-NIG.** -/
theorem c127_nig (h : NIG) : nigFromProto (nigToProto h) = h := rfl

example : nigFromProto (nigToProto ⟨1, 2, 3, 4⟩) = ⟨1, 2, 3, 4⟩ := c127_nig _

/-- **C127, Normal x NIG.** -/
theorem c127_nxig (h : NxIG) : nxigFromProto (nxigToProto h) = h := rfl

example : nxigFromProto (nxigToProto ⟨1, 2, 3, 4⟩) = ⟨1, 2, 3, 4⟩ := c127_nxig _

/-- **C127, Normal-Wishart.** Hyperparameters whose stored inverse is the inverse of the scale come
back complete; if the scale has no inverse (not positive definite) the call throws what
`inverse_spd` throws. -/
theorem c127_normal_wishart (inv : Mat ℝ → Except Fault (Mat ℝ)) (h : NWDyn) (h1 : ShapeOK h.scale)
    (h2 : ShapeOK h.scaleChol) :
    (inv h.scale = .ok h.scaleInv → nwDynFromProto inv (nwDynToProto h) = .ok h) ∧
    ∀ e, inv h.scale = .error e → nwDynFromProto inv (nwDynToProto h) = .error e := by
  unfold nwDynFromProto nwDynToProto
  simp only
  rw [c46_vector_roundtrip, ok_bind, h1.roundtrip, ok_bind]
  constructor
  · intro hi
    rw [hi, ok_bind, h2.roundtrip, ok_bind]
  · intro e he
    rw [he]
    rfl

example : ShapeOK (⟨2, 2, [2, 0, 0, 2]⟩ : Mat ℝ) := ⟨rfl, Or.inl ⟨by norm_num, by norm_num⟩⟩

/-- **C127, linear regression (partial).** Mean, scaling, shape and scale are those of the
source. Missing: the inverse of the scaling stays that of the object that is overwritten, see
`c127_lin_reg_violated`. -/
theorem c127_lin_reg_partial (h old : MNIGDyn) (h1 : ShapeOK h.varScaling) :
    ∃ h', mnigFromProto old (mnigToProto h) = .ok h' ∧ h'.mean = h.mean ∧
      h'.varScaling = h.varScaling ∧ h'.shape = h.shape ∧ h'.scale = h.scale ∧
      h'.varScalingInv = old.varScalingInv := by
  unfold mnigFromProto mnigToProto
  simp only
  rw [c46_vector_roundtrip, ok_bind, h1.roundtrip, ok_bind]
  exact ⟨_, rfl, rfl, rfl, rfl, rfl, rfl⟩

/-- **C127, failing case.** Restored into an object whose inverse is another matrix (that of a new
object is empty), the hyperparameters are not those that were saved. -/
theorem c127_lin_reg_violated (h old : MNIGDyn) (hi : h.varScalingInv ≠ old.varScalingInv) :
    mnigFromProto old (mnigToProto h) ≠ .ok h := by
  intro he
  unfold mnigFromProto mnigToProto at he
  simp only at he
  rw [c46_vector_roundtrip, ok_bind] at he
  cases hv : matToEigen (matToProto h.varScaling) with
  | error e => rw [hv] at he; cases he
  | ok v =>
    rw [hv, ok_bind] at he
    have := Except.ok.inj he
    apply hi
    rw [← this]

example : mnigFromProto ⟨[], ⟨0, 0, []⟩, ⟨0, 0, []⟩, 0, 0⟩
    (mnigToProto ⟨[1], ⟨1, 1, [2]⟩, ⟨1, 1, [1/2]⟩, 3, 4⟩) ≠
      .ok ⟨[1], ⟨1, 1, [2]⟩, ⟨1, 1, [1/2]⟩, 3, 4⟩ :=
  c127_lin_reg_violated _ _ (by intro h; cases h)

/-- **C127, factor analysis (partial).** The hyperparameters are those of the source, and so are
all prior draws if the object has the dimension of the source. Missing: the dimension is not
restored, see `c127_fa_violated`. -/
theorem c127_fa_partial (o old : FAPriorObj) :
    ∃ o', faHypFromProto old (faHypToProto o) = .ok o' ∧ o'.hyp = o.hyp ∧
      (old.dim = o.dim → ∀ normal ig, faDynSample o' normal ig = faDynSample o normal ig) := by
  refine ⟨{ old with hyp := o.hyp }, ?_, rfl, ?_⟩
  · unfold faHypFromProto faHypToProto
    simp only
    rw [c46_vector_roundtrip, ok_bind, c46_vector_roundtrip, ok_bind]
  · intro hd normal ig
    have : ({ old with hyp := o.hyp } : FAPriorObj) = o := by
      cases o; cases old; simp only at hd; subst hd; rfl
    rw [this]

theorem foldlM_replace {f : ℕ → ℝ} (l : List ℕ) (v : List ℝ) (hl : ∀ j ∈ l, j < v.length)
    (w : List ℝ) (hw : w.length = v.length) (g : ℕ → ℝ → ℝ) (hf : ∀ j (hj : j < v.length), f j = g j v[j]) :
    ∃ w', l.foldlM (fun (u : List ℝ) j => (vget v j >>= fun m => vset u j (g j m) : Except Fault _)) w =
        .ok w' ∧ w'.length = v.length ∧ ∀ j (hj : j < w'.length) (hj' : j < w.length),
          w'[j] = if j ∈ l then f j else w[j] := by
  induction l generalizing w with
  | nil => exact ⟨w, rfl, hw, fun j hj hj' => by simp⟩
  | cons a l ih =>
    have ha : a < v.length := hl a (by simp)
    have h1 : vget v a = .ok v[a] := by unfold vget; rw [List.getElem?_eq_getElem ha]
    have h2 : vset w a (g a v[a]) = .ok (w.set a (g a v[a])) := by
      unfold vset; rw [if_pos (by omega)]
    obtain ⟨w', e1, e2, e3⟩ := ih (fun j hj => hl j (by simp [hj])) (w.set a (g a v[a])) (by simpa using hw)
    refine ⟨w', ?_, e2, ?_⟩
    · rw [List.foldlM_cons, h1, ok_bind, h2, ok_bind]; exact e1
    · intro j hj hj'
      rw [e3 j hj (by simpa using hj')]
      by_cases hjl : j ∈ l
      · simp [hjl]
      · by_cases hja : a = j
        · subst hja
          simp [hjl, hf a ha]
        · simp [hjl, hja, Ne.symm hja, List.getElem_set_ne]

/-- **C127, failing case.** The hyperparameters of an initialized factor-analytic prior model, restored
into a new one: whatever the generators, every draw of the new one has the prior means, the
fixed variances `beta / (alpha0 + 1)`, and loadings without rows; while the source draws each
mean and variance and a row of loadings for each variable. -/
theorem c127_fa_violated (mutilde beta : List ℝ) (phi alpha0 : ℝ) (q : ℕ) (o : FAPriorObj)
    (ho : faPriorInit mutilde beta phi alpha0 q = .ok o) :
    ∃ o', faHypFromProto faPriorFresh (faHypToProto o) = .ok o' ∧
      ∀ normal ig : ℕ → ℝ → ℝ → ℝ,
        faDynSample o' normal ig = .ok ⟨mutilde, beta.map (fun b => b / (alpha0 + 1)), []⟩ ∧
        ∃ d, faDynSample o normal ig = .ok d ∧ d.lambda.length = mutilde.length ∧
          d.mu.length = mutilde.length ∧ d.psi.length = mutilde.length ∧
          (∀ j (h : j < mutilde.length) (h' : j < d.mu.length),
            d.mu[j] = normal (j * (q + 1)) mutilde[j] (Real.sqrt phi)) ∧
          ∀ j (h : j < beta.length) (h' : j < d.psi.length), d.psi[j] = ig j alpha0 beta[j] := by
  unfold faPriorInit at ho
  split at ho
  · cases ho
  rename_i hlen
  push Not at hlen
  split at ho
  · cases ho
  split at ho
  · cases ho
  split at ho
  · cases ho
  split at ho
  · cases ho
  have ho := Except.ok.inj ho
  subst ho
  obtain ⟨o', h1, h2, -⟩ := c127_fa_partial ⟨mutilde.length, ⟨mutilde, beta, phi, alpha0, q⟩⟩ faPriorFresh
  refine ⟨o', h1, ?_⟩
  have hd : o'.dim = 0 := by
    unfold faHypFromProto faHypToProto at h1
    simp only at h1
    rw [c46_vector_roundtrip, ok_bind, c46_vector_roundtrip, ok_bind] at h1
    rw [← Except.ok.inj h1]
    rfl
  intro normal ig
  constructor
  · unfold faDynSample
    rw [hd, h2]
    rfl
  · obtain ⟨mu, m1, m2, m3⟩ := foldlM_replace
      (f := fun j => normal (j * (q + 1)) (mutilde.getD j 0) (Real.sqrt phi))
      (List.range mutilde.length) mutilde (by simp) mutilde rfl
      (fun j m => normal (j * (q + 1)) m (Real.sqrt phi)) (by intro j hj; simp [hj])
    obtain ⟨psi, p1, p2, p3⟩ := foldlM_replace (f := fun j => ig j alpha0 (beta.getD j 0))
      (List.range mutilde.length) beta (by simp [hlen]) (beta.map fun b => b / (alpha0 + 1)) (by simp)
      (fun j b => ig j alpha0 b) (by intro j hj; simp [hj])
    refine ⟨⟨mu, psi, (List.range mutilde.length).map fun j =>
      (List.range q).map fun i => normal (j * (q + 1) + 1 + i) 0 1⟩, ?_, by simp, m2, by rw [p2, hlen],
      ?_, ?_⟩
    · unfold faDynSample
      simp only
      rw [m1, ok_bind, p1, ok_bind]
    · intro j h h'
      rw [m3 j h' h]
      simp [h]
    · intro j h h'
      rw [p3 j h' (by simpa using h)]
      simp [h, hlen]

example : ∃ o, faPriorInit [1, 2] [3, 4] 1 2 1 = .ok o := by
  refine ⟨⟨2, ⟨[1, 2], [3, 4], 1, 2, 1⟩⟩, ?_⟩
  unfold faPriorInit
  norm_num

/-! ### C128 -/

/-- The diagonal of the inverse of a covariance matrix: its reciprocal is the least variance of a
linear combination in which variable `j` has coefficient one. -/
theorem inv_diag_least {p : ℕ} {S : Matrix (Fin p) (Fin p) ℝ} (hS : S.PosDef) (j : Fin p) :
    0 < S⁻¹ j j ∧ IsLeast {v : ℝ | ∃ a : Fin p → ℝ, a j = 1 ∧ v = a ⬝ᵥ (S *ᵥ a)} ((S⁻¹ j j)⁻¹) := by
  have hT : S⁻¹.PosDef := hS.inv
  have hu : IsUnit S.det := (Matrix.isUnit_iff_isUnit_det _).1 hS.isUnit
  have hsym : Sᵀ = S := by simpa using hS.isHermitian.eq
  set e : Fin p → ℝ := Pi.single j 1 with he
  have hdot : ∀ a : Fin p → ℝ, a ⬝ᵥ e = a j := by intro a; simp [he]
  set w : Fin p → ℝ := S⁻¹ *ᵥ e with hw
  have hSw : S *ᵥ w = e := by rw [hw, mulVec_mulVec, mul_nonsing_inv _ hu, one_mulVec]
  have hwj : w j = S⁻¹ j j := by simp [hw, he, mulVec_single]
  have hpos : 0 < S⁻¹ j j := hT.diag_pos
  have hc : (S⁻¹ j j)⁻¹ * S⁻¹ j j = 1 := inv_mul_cancel₀ hpos.ne'
  refine ⟨hpos, ⟨(S⁻¹ j j)⁻¹ • w, by simp [hwj, hc], ?_⟩, ?_⟩
  · rw [mulVec_smul, hSw, dotProduct_smul, smul_dotProduct, hdot, hwj, smul_eq_mul, smul_eq_mul, hc, mul_one]
  · rintro v ⟨a, ha, rfl⟩
    have hq := hS.posSemidef.dotProduct_mulVec_nonneg (a - (S⁻¹ j j)⁻¹ • w)
    simp only [star_trivial] at hq
    rw [mulVec_sub, mulVec_smul, hSw, dotProduct_sub, sub_dotProduct, sub_dotProduct, dotProduct_smul,
      dotProduct_smul, hdot, hdot, ha] at hq
    have h1 : w ⬝ᵥ S *ᵥ a = a j := by
      rw [dotProduct_mulVec, ← mulVec_transpose, hsym, hSw, dotProduct_comm, hdot]
    simp only [smul_dotProduct, smul_eq_mul, Pi.smul_apply, h1, ha, hwj] at hq
    have : (S⁻¹ j j)⁻¹ * ((S⁻¹ j j)⁻¹ * S⁻¹ j j) = (S⁻¹ j j)⁻¹ := by rw [hc, mul_one]
    nlinarith

theorem covOf_quad {n p : ℕ} (y : Fin n → Fin p → ℝ) (a : Fin p → ℝ) :
    a ⬝ᵥ (covOf y *ᵥ a) = (∑ i, (∑ k, a k * (y i k - (∑ l, y l k) / n)) ^ 2) / ((n : ℝ) - 1) := by
  unfold covOf
  simp only
  set c : Matrix (Fin n) (Fin p) ℝ := Matrix.of fun i j => y i j - colMeans y j with hc
  rw [smul_mulVec, dotProduct_smul, ← mulVec_mulVec, dotProduct_mulVec, vecMul_transpose, smul_eq_mul,
    one_div, inv_mul_eq_div]
  congr 1
  unfold dotProduct
  refine Finset.sum_congr rfl fun i _ => ?_
  rw [← sq]
  congr 1
  unfold mulVec dotProduct
  refine Finset.sum_congr rfl fun k _ => ?_
  simp [hc, colMeans, mul_comm]

/-- **C128 (partial): the values.** For a hierarchy that has data, no dimension and no scales, the new
hyperparameters are the means of the data and, for each variable, `alpha0 - 1` times the least variance
(with divisor `n - 1`) of a linear combination of the centered variables in which this variable has
coefficient one: the variance not explained by the other variables; nothing else changes. The
covariance matrix must be positive definite. Missing: they have no effect, see the `_violated` theorems. -/
theorem c128_values_partial {n p : ℕ} (h : FAHier n p) (y : Fin n → Fin p → ℝ) (hy : h.data = some y)
    (hd : h.likeDim = 0) (hb : h.prior.hyp.beta = []) (ha : h.prior.hyp.alpha0 ≠ 1)
    (hS : (covOf y).PosDef) :
    ∃ (h' : FAHier n p) (v : Fin p → ℝ), faFromData h = .ok h' ∧
      h'.prior.hyp.mutilde = List.ofFn (fun j => (∑ i, y i j) / (n : ℝ)) ∧
      h'.prior.hyp.beta = List.ofFn (fun j => (h.prior.hyp.alpha0 - 1) * v j) ∧
      (∀ j, 0 < v j ∧ IsLeast {x : ℝ | ∃ a : Fin p → ℝ, a j = 1 ∧
        x = (∑ i, (∑ k, a k * (y i k - (∑ l, y l k) / n)) ^ 2) / ((n : ℝ) - 1)} (v j)) ∧
      h'.prior.hyp.phi = h.prior.hyp.phi ∧ h'.prior.hyp.alpha0 = h.prior.hyp.alpha0 ∧
      h'.prior.hyp.q = h.prior.hyp.q ∧ h'.prior.dim = h.prior.dim ∧ h'.likeDim = 0 ∧
      h'.msg = h.msg ∧ h'.data = h.data := by
  have hrun : faFromData h = .ok { h with prior := { h.prior with hyp :=
      ⟨List.ofFn (colMeans y), List.ofFn (fun j => (h.prior.hyp.alpha0 - 1) * ((covOf y)⁻¹ j j)⁻¹),
        h.prior.hyp.phi, h.prior.hyp.alpha0, h.prior.hyp.q⟩ } } := by
    unfold faFromData
    simp only [hd, if_true, hy, hb, ok_bind, List.length_ofFn, ne_eq, not_true_eq_false, if_false, if_neg ha]
    unfold faHypFromProto
    simp only [c46_vector_roundtrip, ok_bind]
  refine ⟨_, fun j => ((covOf y)⁻¹ j j)⁻¹, hrun, rfl, rfl, ?_, rfl, rfl, rfl, rfl, hd, rfl, rfl⟩
  intro j
  obtain ⟨h1, h2⟩ := inv_diag_least hS j
  refine ⟨inv_pos.2 h1, ?_⟩
  simpa only [covOf_quad] using h2

/-- two observations of one variable -/
theorem covOf_example : (covOf (fun (i : Fin 2) (_ : Fin 1) => if i = 0 then 0 else 2)).PosDef := by
  have : covOf (fun (i : Fin 2) (_ : Fin 1) => if i = 0 then (0 : ℝ) else 2) = 2 • 1 := by
    ext i j
    fin_cases i; fin_cases j
    simp [covOf, colMeans, Matrix.mul_apply, Fin.sum_univ_two]
    norm_num
  rw [this]
  exact Matrix.PosDef.one.smul (by norm_num)

example : ∃ h' : FAHier 2 1, faFromData ⟨some (fun i _ => if i = 0 then 0 else 2), 0, ⟨0, ⟨[], [], 1, 3, 1⟩⟩,
    ⟨[], [], 1, 3, 1⟩⟩ = .ok h' :=
  let ⟨h', _, e, _⟩ := c128_values_partial ⟨some (fun (i : Fin 2) (_ : Fin 1) => if i = 0 then 0 else 2), 0,
    ⟨0, ⟨[], [], 1, 3, 1⟩⟩, ⟨[], [], 1, 3, 1⟩⟩ _ rfl rfl rfl (by norm_num) covOf_example
  ⟨h', e⟩

theorem faFromData_key {n p : ℕ} (h h' : FAHier n p) (hr : faFromData h = .ok h') :
    ∃ o, h' = { h with prior := o } ∧ o.dim = h.prior.dim := by
  unfold faFromData at hr
  simp only [faHypFromProto, c46_vector_roundtrip, ok_bind] at hr
  repeat' split at hr
  all_goals first
    | cases hr; done
    | exact ⟨_, (Except.ok.inj hr).symm, rfl⟩

/-- **C128, failing case: draws.** After the hyperparameters were set from the data, the prior model still
has dimension zero if it had before: every draw of the prior, whatever the generators, has the new
means as its means, fixed variances, and loadings without rows. -/
theorem c128_draws_violated {n p : ℕ} (h h' : FAHier n p) (hd : h.prior.dim = 0) (hr : faFromData h = .ok h')
    (normal ig : ℕ → ℝ → ℝ → ℝ) :
    faDynSample h'.prior normal ig = .ok ⟨h'.prior.hyp.mutilde,
      h'.prior.hyp.beta.map (fun b => b / (h'.prior.hyp.alpha0 + 1)), []⟩ := by
  obtain ⟨o, rfl, ho⟩ := faFromData_key h h' hr
  have hdim : o.dim = 0 := ho.trans hd
  unfold faDynSample
  rw [hdim]
  rfl

/-- **C128, failing case: runs.** `initialize`, which every run calls after the data were set, gives the
same hierarchy as if the hyperparameters had not been set from the data. -/
theorem c128_run_violated {n p : ℕ} (h h' : FAHier n p) (hr : faFromData h = .ok h') :
    h'.init = h.init := by
  obtain ⟨o, rfl, -⟩ := faFromData_key h h' hr
  rfl

/-- **C128: initialized hierarchies.** A hierarchy initialized from a message with at least one
variable keeps its hyperparameters. -/
theorem c128_initialized {n p : ℕ} (h h1 : FAHier n p) (hi : h.init = .ok h1) (hne : h.msg.mutilde ≠ []) :
    faFromData h1 = .ok h1 := by
  unfold FAHier.init at hi
  cases ho : faPriorInit h.msg.mutilde h.msg.beta h.msg.phi h.msg.alpha0 h.msg.q with
  | error e => rw [ho] at hi; cases hi
  | ok o =>
    rw [ho, ok_bind] at hi
    have hi := Except.ok.inj hi
    subst hi
    unfold faPriorInit at ho
    split at ho
    · cases ho
    rename_i hlen
    push Not at hlen
    split at ho
    · cases ho
    split at ho
    · cases ho
    split at ho
    · cases ho
    split at ho
    · cases ho
    have ho := Except.ok.inj ho
    subst ho
    have h0 : h.msg.mutilde.length ≠ 0 := by simpa using hne
    have hb : h.msg.beta ≠ [] := by
      intro hb; rw [hb] at hlen; exact h0 hlen
    unfold faFromData
    simp only [if_neg h0, ok_bind, if_neg hb]
    unfold faHypFromProto
    simp only [c46_vector_roundtrip, ok_bind]

example : ∃ h1, (⟨none, 0, faPriorFresh, ⟨[1], [2], 1, 3, 1⟩⟩ : FAHier 2 1).init = .ok h1 ∧
    ([1] : List ℝ) ≠ [] := by
  refine ⟨⟨none, 1, ⟨1, ⟨[1], [2], 1, 3, 1⟩⟩, ⟨[1], [2], 1, 3, 1⟩⟩, ?_, by simp⟩
  unfold FAHier.init faPriorInit
  norm_num [ok_bind]

/-- **C128, failing case: shapes up to one.** With `alpha0` below one, which `initialize` accepts, all
scales set from the data are negative; with `alpha0` equal to one the call throws. -/
theorem c128_scales_violated {n p : ℕ} (h : FAHier n p) (y : Fin n → Fin p → ℝ) (hy : h.data = some y)
    (hd : h.likeDim = 0) (hb : h.prior.hyp.beta = []) (hS : (covOf y).PosDef) :
    (h.prior.hyp.alpha0 < 1 → ∃ h', faFromData h = .ok h' ∧ h'.prior.hyp.beta.length = p ∧
      ∀ b ∈ h'.prior.hyp.beta, b < 0) ∧
    (h.prior.hyp.alpha0 = 1 → faFromData h = .error .throw) := by
  constructor
  · intro ha
    obtain ⟨h', v, e, -, e2, e3, -⟩ := c128_values_partial h y hy hd hb ha.ne hS
    refine ⟨h', e, by simp [e2], ?_⟩
    intro b hb
    rw [e2, List.mem_ofFn] at hb
    obtain ⟨j, rfl⟩ := hb
    exact mul_neg_of_neg_of_pos (by linarith) (e3 j).1
  · intro ha
    unfold faFromData
    simp only [hd, if_true, hy, hb, ok_bind, List.length_ofFn, ne_eq, not_true_eq_false, if_false, ha]
    rfl

example : (∃ o, faPriorInit [] [] 1 (1/2) 1 = .ok o ∧ o.hyp.alpha0 < 1) := by
  refine ⟨⟨0, ⟨[], [], 1, 1/2, 1⟩⟩, ?_, by norm_num⟩
  unfold faPriorInit
  norm_num

/-- **C128, failing case: no data.** Before the data are known to the hierarchy the call follows a
null pointer. -/
theorem c128_no_data_is_ub {n p : ℕ} (h : FAHier n p) (hy : h.data = none) (hd : h.likeDim = 0) :
    faFromData h = .error .ub := by
  unfold faFromData
  simp only [hd, if_true, hy]
  rfl

end Bayesmix.Hierarchies
