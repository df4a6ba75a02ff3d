import Verif.Hier.UnconLemmas
import Mathlib.Analysis.SpecialFunctions.ExpDeriv
import Mathlib.LinearAlgebra.Determinant
import Mathlib.Analysis.Calculus.FDeriv.Pi
import Mathlib.Topology.Algebra.Module.FiniteDimension
import Mathlib.Topology.Algebra.Module.Determinant

/-!
# C42 and C75: unconstrained representations and their Jacobians
-/

namespace Bayesmix.Hierarchies

open Matrix

/-- **C42, univariate.** States with positive variance and vectors of size two correspond one to
one. -/
theorem c42_uni_ls :
    (∀ st : UniLS, 0 < st.var → ∃ x, uniLSGetUnconstrained st = .ok x ∧ x.length = 2 ∧
      uniLSSetFromUnconstrained x = .ok st) ∧
    (∀ x : List ℝ, x.length = 2 → ∃ st : UniLS, 0 < st.var ∧
      uniLSSetFromUnconstrained x = .ok st ∧ uniLSGetUnconstrained st = .ok x) := by
  constructor
  · rintro ⟨m, v⟩ hv
    refine ⟨[m, Real.log v], rfl, rfl, ?_⟩
    have : uniLSSetFromUnconstrained [m, Real.log v] = .ok ⟨m, Real.exp (Real.log v)⟩ := rfl
    rw [this, Real.exp_log hv]
  · intro x hx
    obtain ⟨a, b, rfl⟩ := List.length_eq_two.1 hx
    refine ⟨⟨a, Real.exp b⟩, Real.exp_pos b, rfl, ?_⟩
    have : uniLSGetUnconstrained ⟨a, Real.exp b⟩ = .ok [a, Real.log (Real.exp b)] := rfl
    rw [this, Real.log_exp]

example : ∃ x, uniLSGetUnconstrained ⟨-3, 2⟩ = .ok x ∧ x.length = 2 ∧
    uniLSSetFromUnconstrained x = .ok ⟨-3, 2⟩ := c42_uni_ls.1 ⟨-3, 2⟩ (by norm_num)

theorem linRegToConstrained_append (x : List ℝ) (b : ℝ) :
    linRegToConstrained (x ++ [b]) = .ok (x ++ [Real.exp b]) := by
  have h : vecAt (x ++ [b]) ((x ++ [b]).length - 1) = .ok b := vecAt_of_some (by simp)
  unfold linRegToConstrained
  rw [h]
  simp

theorem linRegToUnconstrained_append (x : List ℝ) (b : ℝ) :
    linRegToUnconstrained (x ++ [b]) = .ok (x ++ [Real.log b]) := by
  have h : vecAt (x ++ [b]) ((x ++ [b]).length - 1) = .ok b := vecAt_of_some (by simp)
  unfold linRegToUnconstrained
  rw [h]
  simp

theorem linRegSet_append (x : List ℝ) (b : ℝ) :
    linRegSetFromUnconstrained (x ++ [b]) = .ok ⟨x, Real.exp b⟩ := by
  unfold linRegSetFromUnconstrained
  rw [linRegToConstrained_append, ok_bind]
  have h : vecAt (x ++ [Real.exp b]) ((x ++ [b]).length - 1) = .ok (Real.exp b) :=
    vecAt_of_some (by simp)
  simp only
  rw [h]
  simp

/-- **C42, linear regression.** States with `n` coefficients and positive variance and vectors of
size `n + 1` correspond one to one. -/
theorem c42_lin_reg (n : ℕ) :
    (∀ st : LinRegDyn, st.coeffs.length = n → 0 < st.var →
      ∃ x, linRegGetUnconstrained st = .ok x ∧ x.length = n + 1 ∧
        linRegSetFromUnconstrained x = .ok st) ∧
    (∀ x : List ℝ, x.length = n + 1 → ∃ st : LinRegDyn, st.coeffs.length = n ∧ 0 < st.var ∧
      linRegSetFromUnconstrained x = .ok st ∧ linRegGetUnconstrained st = .ok x) := by
  constructor
  · rintro ⟨c, v⟩ hc hv
    refine ⟨c ++ [Real.log v], linRegToUnconstrained_append c v, by simpa using hc, ?_⟩
    rw [linRegSet_append, Real.exp_log hv]
  · intro x hx
    obtain ⟨y, b, rfl⟩ : ∃ (y : List ℝ) (b : ℝ), x = y ++ [b] :=
      ⟨x.dropLast, x.getLast (by intro h; simp [h] at hx),
        (List.dropLast_append_getLast _).symm⟩
    refine ⟨⟨y, Real.exp b⟩, by simpa using hx, Real.exp_pos b, linRegSet_append y b, ?_⟩
    have : linRegGetUnconstrained ⟨y, Real.exp b⟩ = .ok (y ++ [Real.log (Real.exp b)]) :=
      linRegToUnconstrained_append y _
    rw [this, Real.log_exp]

example : ∃ x, linRegGetUnconstrained ⟨[1, 2, 3], 4⟩ = .ok x ∧ x.length = 4 ∧
    linRegSetFromUnconstrained x = .ok ⟨[1, 2, 3], 4⟩ :=
  (c42_lin_reg 3).1 ⟨[1, 2, 3], 4⟩ rfl (by norm_num)

theorem covMatrixFree_posDef {d : ℕ} (hd : 0 < d) {M : Matrix (Fin d) (Fin d) ℝ} (hM : M.PosDef) :
    covMatrixFree M = .ok (freeOfChol (lltL M)) := by
  unfold covMatrixFree
  rw [if_neg hd.ne', if_pos (fun i => hM.diag_pos)]

/-- The dimension test passes exactly on the sizes of unconstrained vectors. -/
theorem multiLsToConstrained_eq (d : ℕ) (x : List ℝ) (hx : x.length = d + d * (d + 1) / 2) :
    multiLsToConstrained x = .ok ⟨d, fun i => x.getD i.val 0,
      cholOfFree d (x.drop d) * (cholOfFree d (x.drop d))ᵀ⟩ := by
  have hdim : multiLsDim x.length = .ok d := by
    unfold multiLsDim
    simp [dim_formula d x.length hx]
  unfold multiLsToConstrained
  rw [hdim, ok_bind]
  unfold covMatrixConstrain
  rw [if_pos (by rw [List.length_drop]; omega)]
  rfl

/-- **C42, multivariate.** For every dimension `d ≥ 1`, pairs of a mean and a positive definite
precision and vectors of size `d + d (d + 1) / 2` correspond one to one, and the dimension is
recovered; vectors of any other size fail the assertion. -/
theorem c42_multi_ls (d : ℕ) (hd : 0 < d) :
    (∀ (mean : Fin d → ℝ) (prec : Matrix (Fin d) (Fin d) ℝ), prec.PosDef →
      ∃ x, multiLsToUnconstrained mean prec = .ok x ∧ x.length = d + d * (d + 1) / 2 ∧
        multiLsToConstrained x = .ok ⟨d, mean, prec⟩) ∧
    (∀ x : List ℝ, x.length = d + d * (d + 1) / 2 →
      ∃ (mean : Fin d → ℝ) (prec : Matrix (Fin d) (Fin d) ℝ), prec.PosDef ∧
        multiLsToConstrained x = .ok ⟨d, mean, prec⟩ ∧
        multiLsToUnconstrained mean prec = .ok x) := by
  constructor
  · intro mean prec hp
    have hl := lltL_spec hp
    refine ⟨List.ofFn mean ++ freeOfChol (lltL prec), ?_, ?_, ?_⟩
    · unfold multiLsToUnconstrained
      rw [covMatrixFree_posDef hd hp]
      rfl
    · simp [freeOfChol_length]
    · rw [multiLsToConstrained_eq d _ (by simp [freeOfChol_length])]
      have e1 : (List.ofFn mean ++ freeOfChol (lltL prec)).drop d = freeOfChol (lltL prec) := by
        rw [List.drop_append_of_le_length (by simp)]
        simp
      rw [e1, cholOfFree_freeOfChol hl, hl.2.2]
      congr 3
      funext i
      rw [List.getD_eq_getElem?_getD, List.getElem?_append_left (by simp)]
      simp
  · intro x hx
    have hx2 : (x.drop d).length = d * (d + 1) / 2 := by rw [List.length_drop]; omega
    have hllt := cholOfFree_isLLT d (x.drop d)
    refine ⟨fun i => x.getD i.val 0, _, hllt.posDef, multiLsToConstrained_eq d x hx, ?_⟩
    unfold multiLsToUnconstrained
    rw [covMatrixFree_posDef hd hllt.posDef, lltL_eq hllt, freeOfChol_cholOfFree d _ hx2, ok_bind]
    congr 1
    have e : List.ofFn (fun i : Fin d => x.getD i.val 0) = x.take d := by
      apply List.ext_getElem
      · simp; omega
      · intro i h1 h2
        simp only [List.length_ofFn] at h1
        simp [List.getD_eq_getElem?_getD, List.getElem?_eq_getElem (show i < x.length by omega)]
    rw [e, List.take_append_drop]

/-- **C42, multivariate sizes.** A vector is accepted exactly if its size is that of the
unconstrained representation of some dimension. -/
theorem c42_multi_ls_sizes (x : List ℝ) :
    (∃ t, multiLsToConstrained x = .ok t) ↔ ∃ d, x.length = d + d * (d + 1) / 2 := by
  constructor
  · rintro ⟨t, ht⟩
    unfold multiLsToConstrained multiLsDim at ht
    simp only at ht
    split_ifs at ht with h
    · exact ⟨_, (dim_formula_conv x.length _ h).2⟩
    · cases ht
  · rintro ⟨d, hd⟩
    exact ⟨_, multiLsToConstrained_eq d x hd⟩

/-- **C42, multivariate objects.** Setting a state from the unconstrained representation of a
state with positive definite precision keeps mean and precision, and stores the Cholesky factor
and the log determinant of the precision. -/
theorem c42_multi_ls_state (d : ℕ) (hd : 0 < d) (st : MultiLS d) (hp : st.prec.PosDef) :
    ∃ x st', multiLSGetUnconstrained st = .ok x ∧ multiLSSetFromUnconstrained x = .ok ⟨d, st'⟩ ∧
      st'.mean = st.mean ∧ st'.prec = st.prec ∧ IsLLT st'.precChol st.prec ∧
      st'.precLogdet = Real.log st.prec.det := by
  obtain ⟨x, h1, -, h2⟩ := (c42_multi_ls d hd).1 st.mean st.prec hp
  refine ⟨x, multiLSFromConstrained st.mean st.prec, h1, ?_, rfl, rfl, lltL_spec hp,
    (lltL_spec hp).logdet⟩
  unfold multiLSSetFromUnconstrained
  rw [h2]
  rfl

example : ∃ x st', multiLSGetUnconstrained (⟨![1, 2], 1, 1, 0⟩ : MultiLS 2) = .ok x ∧
    multiLSSetFromUnconstrained x = .ok ⟨2, st'⟩ ∧
      st'.mean = ![1, 2] ∧ st'.prec = 1 ∧ IsLLT st'.precChol 1 ∧
      st'.precLogdet = Real.log (1 : Matrix (Fin 2) (Fin 2) ℝ).det :=
  c42_multi_ls_state 2 (by norm_num) _ Matrix.PosDef.one

/-! ### C75 -/

/-- The constraining map on vectors with `n + 1` entries: exponential of the last one. -/
theorem hasFDerivAt_exp_last (n : ℕ) (u : Fin (n + 1) → ℝ) :
    HasFDerivAt (fun (u : Fin (n + 1) → ℝ) i => if i = Fin.last n then Real.exp (u i) else u i)
      (LinearMap.toContinuousLinearMap (Matrix.toLin' (Matrix.diagonal
        (fun i => if i = Fin.last n then Real.exp (u i) else 1)))) u := by
  rw [hasFDerivAt_pi']
  intro i
  by_cases hi : i = Fin.last n
  · have h := (hasFDerivAt_apply (𝕜 := ℝ) i u).exp
    simp only [hi, if_true] at h ⊢
    refine h.congr_fderiv ?_
    ext v
    simp [Matrix.mulVec_diagonal]
  · have h := hasFDerivAt_apply (𝕜 := ℝ) i u
    simp only [hi, if_false]
    refine h.congr_fderiv ?_
    ext v
    simp [Matrix.mulVec_diagonal, hi]

theorem det_exp_last (n : ℕ) (u : Fin (n + 1) → ℝ) :
    (LinearMap.toContinuousLinearMap (Matrix.toLin' (Matrix.diagonal
        (fun i => if i = Fin.last n then Real.exp (u i) else 1)))).det =
      Real.exp (u (Fin.last n)) := by
  rw [ContinuousLinearMap.det, LinearMap.coe_toContinuousLinearMap, LinearMap.det_toLin',
    Matrix.det_diagonal, Finset.prod_ite_eq' Finset.univ (Fin.last n) (fun i => Real.exp (u i))]
  simp

theorem ofFn_succ_last (n : ℕ) (u : Fin (n + 1) → ℝ) :
    List.ofFn u = List.ofFn (fun i : Fin n => u i.castSucc) ++ [u (Fin.last n)] := by
  rw [List.ofFn_succ_last]

/-- **C75, linear regression.** At every point, `log_det_jac` of the state set from an
unconstrained vector is the logarithm of the absolute determinant of the derivative of the
constraining map. -/
theorem c75_lin_reg (n : ℕ) (f : (Fin (n + 1) → ℝ) → Fin (n + 1) → ℝ)
    (hf : ∀ u, linRegToConstrained (List.ofFn u) = .ok (List.ofFn (f u))) (u : Fin (n + 1) → ℝ) :
    ∃ (f' : (Fin (n + 1) → ℝ) →L[ℝ] Fin (n + 1) → ℝ) (st : LinRegDyn), HasFDerivAt f f' u ∧
      linRegSetFromUnconstrained (List.ofFn u) = .ok st ∧
      linRegLogDetJac st = .ok (Real.log |f'.det|) := by
  have hf' : f = fun (u : Fin (n + 1) → ℝ) i =>
      if i = Fin.last n then Real.exp (u i) else u i := by
    funext u
    apply List.ofFn_injective
    have h := hf u
    rw [ofFn_succ_last, linRegToConstrained_append] at h
    rw [← Except.ok.inj h, ofFn_succ_last n (fun i => if i = Fin.last n then Real.exp (u i) else u i)]
    simp [Fin.castSucc_ne_last]
  subst hf'
  refine ⟨_, ⟨List.ofFn (fun i : Fin n => u i.castSucc), Real.exp (u (Fin.last n))⟩,
    hasFDerivAt_exp_last n u, ?_, ?_⟩
  · rw [ofFn_succ_last, linRegSet_append]
  · rw [det_exp_last, abs_of_pos (Real.exp_pos _)]
    unfold linRegLogDetJac
    simp only
    rw [vecAt_of_some (x := Real.exp (u (Fin.last n))) (by simp)]
    simp [positiveConstrain]

/-- **C75, univariate.** -/
theorem c75_uni_ls (f : (Fin 2 → ℝ) → Fin 2 → ℝ)
    (hf : ∀ u, uniLsToConstrained (List.ofFn u) = .ok (List.ofFn (f u))) (u : Fin 2 → ℝ) :
    ∃ (f' : (Fin 2 → ℝ) →L[ℝ] Fin 2 → ℝ) (st : UniLS), HasFDerivAt f f' u ∧
      uniLSSetFromUnconstrained (List.ofFn u) = .ok st ∧
      uniLSLogDetJac st = Real.log |f'.det| := by
  have hf' : f = fun (u : Fin 2 → ℝ) i => if i = Fin.last 1 then Real.exp (u i) else u i := by
    funext u
    apply List.ofFn_injective
    have h := hf u
    have e : uniLsToConstrained (List.ofFn u) = .ok [u 0, Real.exp (u 1)] := rfl
    rw [e] at h
    rw [← Except.ok.inj h]
    rfl
  subst hf'
  refine ⟨_, ⟨u 0, Real.exp (u 1)⟩, hasFDerivAt_exp_last 1 u, rfl, ?_⟩
  rw [det_exp_last, abs_of_pos (Real.exp_pos _)]
  simp [uniLSLogDetJac, positiveConstrain]

example : ∃ f : (Fin 2 → ℝ) → Fin 2 → ℝ,
    ∀ u, uniLsToConstrained (List.ofFn u) = .ok (List.ofFn (f u)) :=
  ⟨fun u => ![u 0, Real.exp (u 1)], fun _ => rfl⟩

example (n : ℕ) : ∃ f : (Fin (n + 1) → ℝ) → Fin (n + 1) → ℝ,
    ∀ u, linRegToConstrained (List.ofFn u) = .ok (List.ofFn (f u)) := by
  refine ⟨fun u i => if i = Fin.last n then Real.exp (u i) else u i, fun u => ?_⟩
  rw [ofFn_succ_last, linRegToConstrained_append,
    ofFn_succ_last n (fun i => if i = Fin.last n then Real.exp (u i) else u i)]
  simp [Fin.castSucc_ne_last]

/-- **C75, violated for the multivariate state.** `log_det_jac` throws, for every dimension
`d ≥ 1` and every state with positive definite precision. -/
theorem c75_multi_ls_violated (d : ℕ) (hd : 0 < d) (st : MultiLS d) (hp : st.prec.PosDef) :
    multiLSLogDetJac st = .error .throw := by
  unfold multiLSLogDetJac
  rw [covMatrixFree_posDef hd hp, ok_bind]
  have hlen := freeOfChol_length (lltL st.prec)
  have hpos : 0 < d * (d + 1) / 2 := Nat.div_pos (by nlinarith) (by norm_num)
  unfold covMatrixConstrain
  rw [if_neg (by rw [hlen]; omega)]
  rfl

example : multiLSLogDetJac (⟨![1, 2], 1, 1, 0⟩ : MultiLS 2) = .error .throw :=
  c75_multi_ls_violated 2 (by norm_num) _ Matrix.PosDef.one

end Bayesmix.Hierarchies
