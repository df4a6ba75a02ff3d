import Verif.Mixing.Serial
import Verif.Hier.Checks

/-!
# What a mixing accepts

`initialize` of the five mixings: `BaseMixing::initialize` (/repo/src/mixings/base_mixing.h:121-127)
and the `initialize_state` that it calls.  `dpInit`, `pyInit` and `sbInit` are in
`Verif.Mixing.Model`; here are the mixture of finite mixtures and the logit stick-breaking.
-/

namespace Bayesmix.Mixing

open Bayesmix Hierarchies

noncomputable section

/-- `BaseMixing::initialize`, base_mixing.h:121-127: `none` is a mixing whose prior was never
    given. -/
def baseInit {P S : Type} (init : P → Except Fault S) : Option P → Except Fault S
  | none => .error .throw
  | some p => init p

/-- Prior message of `PitYorMixing`, mixing_prior.proto. -/
inductive PYPrior where
  | fixed (strength discount : ℝ)
  | other

/-- `PitYorMixing::initialize_state`, pityor_mixing.cc:74-89. -/
def pyInitPrior : PYPrior → Except Fault PYState
  | .fixed a b => pyInit a b
  | .other => .error .throw

/-- Prior message of `MixtureFiniteMixing`: both parameters fixed, or the `oneof` is not set. -/
inductive MFMPrior where
  | fixed (lambda gamma : ℝ)
  | other

/-- `MixtureFiniteMixing::initialize_state`, mixture_finite_mixing.cc:88-102: the table is left
    alone. -/
def mfmInit (o : MFMObj) : MFMPrior → Except Fault MFMObj
  | .fixed l g =>
      if l ≤ 0 then .error .throw
      else if g ≤ 0 then .error .throw
      else .ok { o with lambda := l, gamma := g }
  | .other => .error .throw

/-- `MixtureFiniteMixing::update_state`, mixture_finite_mixing.cc:14-26. -/
def mfmUpdate (o : MFMObj) : MFMPrior → Except Fault MFMObj
  | .fixed _ _ => .ok o
  | .other => .error .throw

/-- The normal prior of the coefficients in `LogSBPrior`, mixing_prior.proto: a vector and a
    matrix, whose sizes need not fit. -/
structure CoefPrior where
  dim : ℕ
  mean : Fin dim → ℝ
  rows : ℕ
  cols : ℕ
  var : Matrix (Fin rows) (Fin cols) ℝ

/-- `LogSBPrior`; `none` is an unset `oneof`. -/
structure LogSBPrior where
  coef : Option CoefPrior
  step : ℝ
  num : ℕ

/-- `stan::math::inverse_spd` of a matrix that need not be square. -/
def inverseSpdAny {r c : ℕ} (m : Matrix (Fin r) (Fin c) ℝ) :
    Except Fault (Matrix (Fin r) (Fin r) ℝ) :=
  if h : r = c then inverseSpd (m.submatrix id (Fin.cast h)) else .error .throw

/-- State of `LogitSBMixing` after `initialize_state`: number of components, length of
    `acceptance_rates`, columns of the coefficients, precision. -/
structure LogitInit (d : ℕ) where
  num : ℕ
  rates : ℕ
  coeffs : List (Fin d → ℝ)
  precision : Matrix (Fin d) (Fin d) ℝ

/-- `num_components - 1` in 32-bit unsigned arithmetic. -/
def minusOne (num : ℕ) : ℕ := (num + (2 ^ 32 - 1)) % 2 ^ 32

/-- `LogitSBMixing::initialize_state`, logit_sb_mixing.cc:97-124.  The `int` of the loop at lines
    115-117 is compared with the unsigned `num_components - 1`, and overflows if that is above
    `2^31 - 1`.  That the memory suffices for the containers is assumed. -/
def logitInit (p : LogSBPrior) : Except Fault (Σ d, LogitInit d) :=
  match p.coef with
  | none => .error .throw
  | some q => do
    let prec ← inverseSpdAny q.var
    if h : q.dim = q.rows then
      if p.step ≤ 0 then .error .throw
      else if 2 ^ 31 ≤ minusOne p.num then .error .ub
      else .ok ⟨q.rows, p.num, minusOne p.num,
        List.replicate (minusOne p.num) (fun i => q.mean (Fin.cast h.symm i)), prec⟩
    else .error .throw

end

end Bayesmix.Mixing
