import Mathlib.Data.EReal.Basic
import Mathlib.Data.Matrix.Mul
import Mathlib.Algebra.BigOperators.Fin
import Verif.Fault
import Verif.Hier.Dist

/-!
# Likelihoods: data membership, summary statistics, cluster log likelihood

`src/hierarchies/likelihoods`. A likelihood object is a `Cluster`. Simplifications:
* sizes of Eigen vectors are fixed by the type (`Fin d`); the likelihoods set their dimension
  in `initialize_state` before any datum arrives;
* datum and covariate of a row are one value of type `D` (for `UniLinRegLikelihood` a pair);
* `int` indexes and cardinalities are unbounded integers.
-/

namespace Bayesmix.Hierarchies

open Real

/-- The data members of `BaseLikelihood` (`src/hierarchies/likelihoods/base_likelihood.h` 166-182) and the
summary statistics of the derived class: `card`, `log_card`, `cluster_data_idx`, `state`. -/
structure Cluster (S : Type) (P : Type) where
  card : ℤ
  logCard : EReal
  idx : Finset ℤ
  stats : S
  state : P

/-- `BaseLikelihood::set_card`, `src/hierarchies/likelihoods/base_likelihood.h` 149-153. -/
noncomputable def logCardOf (card : ℤ) : EReal :=
  if card = 0 then ⊥ else ((Real.log card : ℝ) : EReal)

/-- `BaseLikelihood::add_datum`, `src/hierarchies/likelihoods/base_likelihood.h` 185-194. `upd` is
`update_summary_statistics` of the derived class with its Boolean `add`. -/
noncomputable def addDatum {D S P : Type} (upd : S → D → Bool → S) (c : Cluster S P) (id : ℤ)
    (datum : D) : Except Fault (Cluster S P) :=
  if id ∈ c.idx then .error .assertFail
  else
    let card := c.card + 1
    .ok { c with
      card := card
      logCard := logCardOf card
      stats := upd c.stats datum true
      idx := insert id c.idx }

/-- `BaseLikelihood::remove_datum`, `src/hierarchies/likelihoods/base_likelihood.h` 196-206. -/
noncomputable def removeDatum {D S P : Type} (upd : S → D → Bool → S) (c : Cluster S P) (id : ℤ)
    (datum : D) : Except Fault (Cluster S P) :=
  let stats := upd c.stats datum false
  let card := c.card - 1
  if id ∈ c.idx then
    .ok { c with card := card, logCard := logCardOf card, stats := stats, idx := c.idx.erase id }
  else .error .assertFail

/-- `BaseLikelihood::clear_data`, `src/hierarchies/likelihoods/base_likelihood.h` 142-146, followed by
`clear_summary_statistics()` of the derived class, whose result is `zero`. -/
noncomputable def clearAll {S P : Type} (zero : S) (c : Cluster S P) : Cluster S P :=
  { c with card := 0, logCard := logCardOf 0, idx := ∅, stats := zero }

/-- `BaseLikelihood::clone`, `src/hierarchies/likelihoods/base_likelihood.h` 35-40: copy, then clear. -/
noncomputable def cloneLike {S P : Type} (zero : S) (c : Cluster S P) : Cluster S P :=
  clearAll zero c

/-! ### `UniNormLikelihood` -/

/-- Summary statistics, `src/hierarchies/likelihoods/uni_norm_likelihood.h` 54-55. -/
@[ext] structure UniNormStats where
  dataSum : ℝ
  dataSumSquares : ℝ

/-- `clear_summary_statistics`, `src/hierarchies/likelihoods/uni_norm_likelihood.cc` 18-21. -/
def uniNormZero : UniNormStats := ⟨0, 0⟩

/-- `update_sum_stats`, `src/hierarchies/likelihoods/uni_norm_likelihood.cc` 7-16. -/
noncomputable def uniNormUpd (s : UniNormStats) (y : ℝ) (add : Bool) : UniNormStats :=
  if add then ⟨s.dataSum + y, s.dataSumSquares + y * y⟩
  else ⟨s.dataSum - y, s.dataSumSquares - y * y⟩

/-- A state with mean and variance, `src/hierarchies/likelihoods/states/uni_ls_state.h` 48-50. -/
structure UniLS where
  mean : ℝ
  var : ℝ

/-- `compute_lpdf`, `src/hierarchies/likelihoods/uni_norm_likelihood.cc` 3-5. -/
noncomputable def uniNormLpdf (st : UniLS) (y : ℝ) : ℝ := normalLpdf y st.mean (sqrt st.var)

/-- `cluster_lpdf_from_unconstrained`, `src/hierarchies/likelihoods/uni_norm_likelihood.h` 38-48:
`positive_constrain` is the exponential function. -/
noncomputable def uniNormClusterLpdf {P : Type} (c : Cluster UniNormStats P) (x0 x1 : ℝ) : ℝ :=
  let mean := x0
  let var := exp x1
  let out := -(c.stats.dataSumSquares - 2 * mean * c.stats.dataSum + c.card * mean * mean) /
    (2 * var)
  out - c.card * 0.5 * log (2 * π * var)

/-! ### `LaplaceLikelihood` -/

/-- `update_sum_stats`, `src/hierarchies/likelihoods/laplace_likelihood.h` 59-61: does nothing. -/
def laplaceUpd (s : Unit) (_ : ℝ) (_ : Bool) : Unit := s

/-- `compute_lpdf`, `src/hierarchies/likelihoods/laplace_likelihood.cc` 3-6. -/
noncomputable def laplaceLpdf (st : UniLS) (y : ℝ) : ℝ :=
  doubleExponentialLpdf y st.mean (sqrt (st.var / 2.0))

/-- `cluster_lpdf_from_unconstrained`, `src/hierarchies/likelihoods/laplace_likelihood.h` 39-55: reads the
dataset at the stored indexes. -/
noncomputable def laplaceClusterLpdf {S P : Type} (data : ℤ → ℝ) (c : Cluster S P) (x0 x1 : ℝ) :
    ℝ :=
  let mean := x0
  let var := exp x1
  ∑ i ∈ c.idx, doubleExponentialLpdf (data i) mean (sqrt (var / 2.0))

/-! ### `MultiNormLikelihood` -/

/-- Summary statistics, `src/hierarchies/likelihoods/multi_norm_likelihood.h` 50-51. -/
@[ext] structure MultiNormStats (d : ℕ) where
  dataSum : Fin d → ℝ
  dataSumSquares : Matrix (Fin d) (Fin d) ℝ

/-- `clear_summary_statistics`, `src/hierarchies/likelihoods/multi_norm_likelihood.cc` 28-31. -/
def multiNormZero (d : ℕ) : MultiNormStats d := ⟨0, 0⟩

/-- `update_sum_stats`, `src/hierarchies/likelihoods/multi_norm_likelihood.cc` 13-26. -/
noncomputable def multiNormUpd {d : ℕ} (s : MultiNormStats d) (y : Fin d → ℝ) (add : Bool) :
    MultiNormStats d :=
  if add then ⟨s.dataSum + y, s.dataSumSquares + Matrix.vecMulVec y y⟩
  else ⟨s.dataSum - y, s.dataSumSquares - Matrix.vecMulVec y y⟩

/-! ### `UniLinRegLikelihood` -/

/-- Summary statistics, `src/hierarchies/likelihoods/uni_lin_reg_likelihood.h` 56-60. -/
@[ext] structure LinRegStats (d : ℕ) where
  dataSumSquares : ℝ
  covarSumSquares : Matrix (Fin d) (Fin d) ℝ
  mixedProd : Fin d → ℝ

/-- `clear_summary_statistics`, `src/hierarchies/likelihoods/uni_lin_reg_likelihood.cc` 5-9. -/
def linRegZero (d : ℕ) : LinRegStats d := ⟨0, 0, 0⟩

/-- `update_sum_stats`, `src/hierarchies/likelihoods/uni_lin_reg_likelihood.cc` 18-30: the datum is the
response with its covariates. -/
noncomputable def linRegUpd {d : ℕ} (s : LinRegStats d) (yx : ℝ × (Fin d → ℝ)) (add : Bool) :
    LinRegStats d :=
  if add then
    ⟨s.dataSumSquares + yx.1 * yx.1, s.covarSumSquares + Matrix.vecMulVec yx.2 yx.2,
      s.mixedProd + yx.1 • yx.2⟩
  else
    ⟨s.dataSumSquares - yx.1 * yx.1, s.covarSumSquares - Matrix.vecMulVec yx.2 yx.2,
      s.mixedProd - yx.1 • yx.2⟩

/-- A regression state, `src/hierarchies/likelihoods/states/uni_lin_reg_ls_state.h` 55-58. -/
structure UniLinRegLS (d : ℕ) where
  regressionCoeffs : Fin d → ℝ
  var : ℝ

/-- `compute_lpdf`, `src/hierarchies/likelihoods/uni_lin_reg_likelihood.cc` 11-16. -/
noncomputable def linRegLpdf {d : ℕ} (st : UniLinRegLS d) (y : ℝ) (x : Fin d → ℝ) : ℝ :=
  normalLpdf y (st.regressionCoeffs ⬝ᵥ x) (sqrt st.var)

/-! ### `FALikelihood` -/

/-- `clear_summary_statistics`, `src/hierarchies/likelihoods/fa_likelihood.cc` 5-7. -/
def faZero (d : ℕ) : Fin d → ℝ := 0

/-- `update_sum_stats`, `src/hierarchies/likelihoods/fa_likelihood.cc` 14-21. -/
noncomputable def faUpd {d : ℕ} (s : Fin d → ℝ) (y : Fin d → ℝ) (add : Bool) : Fin d → ℝ :=
  if add then s + y else s - y

/-! ### `GammaLikelihood` of `examples/gamma_hierarchy` -/

/-- Summary statistics, `examples/gamma_hierarchy/gamma_likelihood.h` 55-58. -/
@[ext] structure GammaStats where
  dataSum : ℝ
  ndata : ℤ

/-- `clear_summary_statistics`, `examples/gamma_hierarchy/gamma_likelihood.h` 62-65. -/
def gammaZero : GammaStats := ⟨0, 0⟩

/-- `update_sum_stats`, `examples/gamma_hierarchy/gamma_likelihood.h` 71-80. -/
noncomputable def gammaUpd (s : GammaStats) (y : ℝ) (add : Bool) : GammaStats :=
  if add then ⟨s.dataSum + y, s.ndata + 1⟩ else ⟨s.dataSum - y, s.ndata - 1⟩

/-- A Gamma state, `examples/gamma_hierarchy/gamma_likelihood.h` 15-18. -/
structure GammaState where
  shape : ℝ
  rate : ℝ

/-- `compute_lpdf`, `examples/gamma_hierarchy/gamma_likelihood.h` 67-69. -/
noncomputable def gammaLikeLpdf (st : GammaState) (y : ℝ) : ℝ := gammaLpdf y st.shape st.rate

/-! ### Sequences of calls -/

/-- A call of `add_datum` or `remove_datum` of the row with the given index. -/
inductive DataOp where
  | add (id : ℤ)
  | remove (id : ℤ)
  deriving DecidableEq

/-- One call, the datum being looked up in the data set, as all algorithms do. -/
noncomputable def runOp {D S P : Type} (upd : S → D → Bool → S) (data : ℤ → D)
    (c : Cluster S P) : DataOp → Except Fault (Cluster S P)
  | .add id => addDatum upd c id (data id)
  | .remove id => removeDatum upd c id (data id)

/-- A sequence of calls on one likelihood object. -/
noncomputable def runOps {D S P : Type} (upd : S → D → Bool → S) (data : ℤ → D)
    (c : Cluster S P) (ops : List DataOp) : Except Fault (Cluster S P) :=
  ops.foldlM (runOp upd data) c

end Bayesmix.Hierarchies
