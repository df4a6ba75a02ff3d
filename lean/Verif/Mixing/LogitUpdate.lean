import Verif.Mixing.Model
import Verif.Hier.MetropolisLaw
import Mathlib.Probability.Distributions.Gaussian.Real

/-!
# The update of the logit stick-breaking mixing (/repo/src/mixings/logit_sb_mixing.cc)

The coefficient matrix is a function of the column (`num_components - 1` of them, the number set by
`initialize_state`) and the row. The random numbers are an argument of the update; its law takes
them independent, standard normal and uniform.
-/

namespace Bayesmix.Mixing

open Bayesmix MeasureTheory ProbabilityTheory

noncomputable section

/-- Members changed by `update_state`: `state.regression_coeffs`, `acceptance_rates` and `n_iter`,
    /repo/src/mixings/logit_sb_mixing.h:16-18, 106-113. -/
structure LsbState (k d : ℕ) where
  coeffs : Fin k → Fin d → ℝ
  accepted : Fin k → ℕ
  nIter : ℕ

/-- Random numbers of one column: the normal numbers of `multi_normal_rng` and the uniform number. -/
abbrev LsbDraw (d : ℕ) := (Fin d → ℝ) × ℝ

/-- `multi_normal_rng(mean, v * I)`: the mean plus the square root of the covariance times the
    normal numbers. Stan throws unless the covariance is positive definite. -/
def multiNormalIso {d : ℕ} (mean : Fin d → ℝ) (v : ℝ) (z : Fin d → ℝ) :
    Except Fault (Fin d → ℝ) :=
  if d = 0 ∨ 0 < v then .ok (fun i => mean i + Real.sqrt v * z i) else .error .throw

/-- One iteration of the loop over components, logit_sb_mixing.cc:31-50. -/
def lsbColumn {k d : ℕ} (mean : Fin d → ℝ) (prec : Matrix (Fin d) (Fin d) ℝ) (step : ℝ)
    (data : List (LogitDatum d)) (draws : Fin k → LsbDraw d) (s : LsbState k d) (h : Fin k) :
    Except Fault (LsbState k d) := do
  let c := s.coeffs h
  let f := fullCond mean prec data h
  let g := gradFullCond mean prec data h
  let prop ← multiNormalIso (propMean step g c) (propVar step) (draws h).1
  if (draws h).2 < Real.exp (logAccept step f g c prop) then
    .ok { s with
      coeffs := Function.update s.coeffs h prop
      accepted := Function.update s.accepted h (s.accepted h + 1) }
  else .ok s

/-- `update_state`, logit_sb_mixing.cc:17-52, for the rows `data` with their labels. -/
def lsbUpdate {k d : ℕ} (mean : Fin d → ℝ) (prec : Matrix (Fin d) (Fin d) ℝ) (step : ℝ)
    (data : List (LogitDatum d)) (draws : Fin k → LsbDraw d) (s : LsbState k d) :
    Except Fault (LsbState k d) :=
  (List.finRange k).foldlM (lsbColumn mean prec step data draws) { s with nIter := s.nIter + 1 }

/-- Law of the random numbers of one column. -/
def lsbDrawLaw (d : ℕ) : Measure (LsbDraw d) :=
  (Measure.pi fun _ : Fin d => gaussianReal 0 1).prod (volume.restrict (Set.Ioo (0 : ℝ) 1))

/-- Coefficients after one update from the coefficients `C`. A fault would leave them; with a
    positive step there is none (`c149_never_fails`). -/
def lsbNew {k d : ℕ} (mean : Fin d → ℝ) (prec : Matrix (Fin d) (Fin d) ℝ) (step : ℝ)
    (data : List (LogitDatum d)) (C : Fin k → Fin d → ℝ) (draws : Fin k → LsbDraw d) :
    Fin k → Fin d → ℝ :=
  match lsbUpdate mean prec step data draws ⟨C, fun _ => 0, 0⟩ with
  | .ok s => s.coeffs
  | .error _ => C

end
end Bayesmix.Mixing
