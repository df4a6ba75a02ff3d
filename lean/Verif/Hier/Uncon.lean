import Verif.Hier.Conj
import Verif.Hier.Serial
import Verif.Fault

/-!
# Unconstrained representations of states

Vectors have run-time sizes. Reading an entry that does not exist fails an Eigen assertion.
-/

namespace Bayesmix.Hierarchies

open Matrix

/-- `v(i)` on an Eigen vector. -/
def vecAt (v : List ℝ) (i : ℕ) : Except Fault ℝ :=
  match v[i]? with
  | some x => .ok x
  | none => .error .assertFail

/-- `uni_ls_to_constrained`, `uni_ls_state.h` 15-21. -/
noncomputable def uniLsToConstrained (x : List ℝ) : Except Fault (List ℝ) := do
  let a ← vecAt x 0
  let b ← vecAt x 1
  .ok [a, Real.exp b]

/-- `uni_ls_to_unconstrained`, `uni_ls_state.h` 25-31. -/
noncomputable def uniLsToUnconstrained (x : List ℝ) : Except Fault (List ℝ) := do
  let a ← vecAt x 0
  let b ← vecAt x 1
  .ok [a, Real.log b]

/-- `UniLS::get_unconstrained`, `uni_ls_state.h` 51-55. -/
noncomputable def uniLSGetUnconstrained (st : UniLS) : Except Fault (List ℝ) :=
  uniLsToUnconstrained [st.mean, st.var]

/-- `UniLS::set_from_unconstrained`, `uni_ls_state.h` 57-61. -/
noncomputable def uniLSSetFromUnconstrained (x : List ℝ) : Except Fault UniLS := do
  let t ← uniLsToConstrained x
  let a ← vecAt t 0
  let b ← vecAt t 1
  .ok ⟨a, b⟩

/-- `stan::math::positive_constrain(x, lp)`: adds `x` to `lp` and returns `exp(x)`. -/
noncomputable def positiveConstrain (x lp : ℝ) : ℝ × ℝ := (Real.exp x, lp + x)

/-- `uni_ls_log_det_jac` on the constrained vector and `UniLS::log_det_jac`, `uni_ls_state.h`
36-41 and 78-82. -/
noncomputable def uniLSLogDetJac (st : UniLS) : ℝ := (positiveConstrain (Real.log st.var) 0).2

/-- `uni_lin_reg_to_constrained`, `uni_lin_reg_ls_state.h` 18-25. -/
noncomputable def linRegToConstrained (x : List ℝ) : Except Fault (List ℝ) := do
  let b ← vecAt x (x.length - 1)
  .ok (x.take (x.length - 1) ++ [Real.exp b])

/-- `uni_lin_reg_to_unconstrained`, `uni_lin_reg_ls_state.h` 31-38. -/
noncomputable def linRegToUnconstrained (x : List ℝ) : Except Fault (List ℝ) := do
  let b ← vecAt x (x.length - 1)
  .ok (x.take (x.length - 1) ++ [Real.log b])

/-- `UniLinRegLS::get_unconstrained`, `uni_lin_reg_ls_state.h` 61-65. -/
noncomputable def linRegGetUnconstrained (st : LinRegDyn) : Except Fault (List ℝ) :=
  linRegToUnconstrained (st.coeffs ++ [st.var])

/-- `UniLinRegLS::set_from_unconstrained`, `uni_lin_reg_ls_state.h` 67-72. -/
noncomputable def linRegSetFromUnconstrained (x : List ℝ) : Except Fault LinRegDyn := do
  let t ← linRegToConstrained x
  let dim := x.length - 1
  let b ← vecAt t dim
  .ok ⟨t.take dim, b⟩

/-- `UniLinRegLS::log_det_jac`, `uni_lin_reg_ls_state.h` 43-49 and 92-96. -/
noncomputable def linRegLogDetJac (st : LinRegDyn) : Except Fault ℝ := do
  let t := st.coeffs ++ [st.var]
  let b ← vecAt t (t.length - 1)
  .ok (positiveConstrain (Real.log b) 0).2

/-- Entry `(i, j)` of a matrix, `0` outside. -/
def matAt {d : ℕ} (L : Matrix (Fin d) (Fin d) ℝ) (i j : ℕ) : ℝ :=
  if h : i < d ∧ j < d then L ⟨i, h.1⟩ ⟨j, h.2⟩ else 0

/-- The vector `cov_matrix_free` builds from the factor `L`: for each row the entries before the
diagonal, then the logarithm of the diagonal entry. -/
noncomputable def freeOfChol {d : ℕ} (L : Matrix (Fin d) (Fin d) ℝ) : List ℝ :=
  (List.range d).flatMap (fun m =>
    (List.range m).map (fun j => matAt L m j) ++ [Real.log (matAt L m m)])

open Classical in
/-- `stan::math::cov_matrix_free` (Stan Math reference): a matrix without rows is rejected, and
so is one with a diagonal entry that is not positive. -/
noncomputable def covMatrixFree {d : ℕ} (y : Matrix (Fin d) (Fin d) ℝ) : Except Fault (List ℝ) :=
  if d = 0 then .error .throw
  else if ∀ i, 0 < y i i then .ok (freeOfChol (lltL y))
  else .error .throw

/-- The lower triangular matrix `cov_matrix_constrain` builds; row `m` starts at position
`m (m + 1) / 2` of the vector (the code keeps a running counter). -/
noncomputable def cholOfFree (K : ℕ) (x : List ℝ) : Matrix (Fin K) (Fin K) ℝ :=
  Matrix.of (fun i j =>
    if j < i then x.getD (i.val * (i.val + 1) / 2 + j.val) 0
    else if j = i then Real.exp (x.getD (i.val * (i.val + 1) / 2 + i.val) 0)
    else 0)

/-- `stan::math::cov_matrix_constrain(x, K)` (Stan Math reference): the size is checked. -/
noncomputable def covMatrixConstrain (x : List ℝ) (K : ℕ) :
    Except Fault (Matrix (Fin K) (Fin K) ℝ) :=
  if x.length = K * (K + 1) / 2 then .ok (cholOfFree K x * (cholOfFree K x)ᵀ)
  else .error .throw

/-- `multi_ls_to_unconstrained`, `multi_ls_state.h` 17-26. -/
noncomputable def multiLsToUnconstrained {d : ℕ} (mean : Fin d → ℝ)
    (prec : Matrix (Fin d) (Fin d) ℝ) : Except Fault (List ℝ) := do
  let precOut ← covMatrixFree prec
  .ok (List.ofFn mean ++ precOut)

open Classical in
/-- The dimension for a vector of size `n`, `multi_ls_state.h` 34-37. The square root is exact. -/
noncomputable def multiLsDim (n : ℕ) : Except Fault ℕ :=
  let dim_ : ℝ := 0.5 * (Real.sqrt (8 * n + 9) - 3)
  if dim_ = ⌊dim_⌋ then .ok ⌊dim_⌋.toNat else .error .assertFail

/-- `multi_ls_to_constrained`, `multi_ls_state.h` 30-43. -/
noncomputable def multiLsToConstrained (x : List ℝ) :
    Except Fault (Σ d : ℕ, (Fin d → ℝ) × Matrix (Fin d) (Fin d) ℝ) := do
  let dim ← multiLsDim x.length
  let prec ← covMatrixConstrain (x.drop dim) dim
  .ok ⟨dim, fun i => x.getD i.val 0, prec⟩

/-- `MultiLS::get_unconstrained`, `multi_ls_state.h` 69-71. -/
noncomputable def multiLSGetUnconstrained {d : ℕ} (st : MultiLS d) : Except Fault (List ℝ) :=
  multiLsToUnconstrained st.mean st.prec

/-- `MultiLS::set_from_unconstrained`, `multi_ls_state.h` 73-84. -/
noncomputable def multiLSSetFromUnconstrained (x : List ℝ) : Except Fault (Σ d : ℕ, MultiLS d) := do
  let t ← multiLsToConstrained x
  .ok ⟨t.1, multiLSFromConstrained t.2.1 t.2.2⟩

/-- `MultiLS::log_det_jac`, `multi_ls_state.h` 48-55 and 107: the second argument handed to
`cov_matrix_constrain` is the accumulator `out = 0`, which the function takes as the dimension;
the accumulator is never changed. -/
noncomputable def multiLSLogDetJac {d : ℕ} (st : MultiLS d) : Except Fault ℝ := do
  let x ← covMatrixFree st.prec
  let _ ← covMatrixConstrain x 0
  .ok 0

end Bayesmix.Hierarchies
