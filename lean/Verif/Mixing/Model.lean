import Mathlib.Analysis.SpecialFunctions.Log.Basic
import Mathlib.Analysis.SpecialFunctions.Sqrt
import Mathlib.Analysis.SpecialFunctions.Sigmoid
import Mathlib.Data.EReal.Operations
import Mathlib.Algebra.BigOperators.Fin
import Mathlib.LinearAlgebra.Matrix.Notation
import Mathlib.Data.Matrix.Mul
import Verif.Fault

/-!
# Mixings (/repo/src/mixings)

Doubles are exact reals.  Log-scale results live in `EReal` because the code
does produce `-inf` (`NEGATIVE_INFTY`, `std::log(0)`).
-/

namespace Bayesmix.Mixing
open Bayesmix

noncomputable section

/-- `std::log` of a non-negative double: `log 0 = -inf`.  (Negative arguments
    give NaN in C++ and are excluded in the theorems.) -/
def stdLog (x : ℝ) : EReal := if x = 0 then ⊥ else ((Real.log x : ℝ) : EReal)

/-- `std::exp` of a double or of `-inf`. -/
def stdExp (x : EReal) : ℝ := if x = ⊥ then 0 else Real.exp x.toReal

/-- `get_log_card` of a hierarchy, kept by `set_card`
    (/repo/src/hierarchies/likelihoods/base_likelihood.h:150-153, 176). -/
def logCard (card : ℕ) : EReal :=
  if card = 0 then ⊥ else ((Real.log (card : ℝ) : ℝ) : EReal)

/-! ## Dirichlet process (/repo/src/mixings/dirichlet_mixing.cc) -/

/-- `Dirichlet::State`, /repo/src/mixings/dirichlet_mixing.h:16-18. -/
structure DPState where
  totalmass : ℝ
  logtotmass : ℝ

/-- A mixing made by the factory (`std::make_shared<DirichletMixing>()`,
    /repo/src/mixings/load_mixings.h:26-28).  All constructors on the way are
    defaulted, so the object is value-initialised: both doubles are zero. -/
def dpFresh : DPState := ⟨0, 0⟩

/-- Prior message of the total mass: a fixed value, a gamma prior
    (shape, rate), or any other case of the `oneof`. -/
inductive DPPrior where
  | fixed (totalmass : ℝ)
  | gamma (shape rate : ℝ)
  | other

/-- `DirichletMixing::initialize_state`, /repo/src/mixings/dirichlet_mixing.cc:93-117.
    `logtotmass` is not assigned. -/
def dpInit (s : DPState) : DPPrior → Except Fault DPState
  | .fixed m => if m ≤ 0 then .error .throw else .ok { s with totalmass := m }
  | .gamma a b =>
      if a ≤ 0 then .error .throw
      else if b ≤ 0 then .error .throw
      else .ok { s with totalmass := a / b }
  | .other => .error .throw

/-- The two distributions between which `update_state` chooses, and the
    probability of the first: `(prob, shape₁, shape₂, rate)`,
    /repo/src/mixings/dirichlet_mixing.cc:26-39, for a drawn `phi`. -/
def dpUpdateParams (a b : ℝ) (n k : ℕ) (phi : ℝ) : ℝ × ℝ × ℝ × ℝ :=
  let odds := (a + k - 1) / (n * (b - Real.log phi))
  (odds / (1 + odds), a + k, a + k - 1, b - Real.log phi)

/-- `stan::math::gamma_rng(shape, rate)`: throws `domain_error` unless both
    parameters are positive; `draw` is the generator, an arbitrary function of
    the parameters. -/
def gammaRng (shape rate : ℝ) (draw : ℝ → ℝ → ℝ) : Except Fault ℝ :=
  if 0 < shape ∧ 0 < rate then .ok (draw shape rate) else .error .throw

/-- `DirichletMixing::update_state`, /repo/src/mixings/dirichlet_mixing.cc:14-46.
    `phi`, `p`, `draw` are the generators (`p` the uniform value); `n` data and
    `k` clusters. -/
def dpUpdate (s : DPState) (prior : DPPrior) (n k : ℕ) (phi : ℝ → ℝ → ℝ) (p : ℝ)
    (draw : ℝ → ℝ → ℝ) : Except Fault DPState :=
  match prior with
  | .fixed _ => .ok s
  | .gamma a b => do
      let phi ← gammaRng (s.totalmass + 1) n phi
      let (prob, sh1, sh2, rate) := dpUpdateParams a b n k phi
      let m ← if p ≤ prob then gammaRng sh1 rate draw else gammaRng sh2 rate draw
      .ok { s with totalmass := m }
  | .other => .error .throw

/-- `DirichletMixing::set_state_from_proto`, dirichlet_mixing.cc:77-82. -/
def dpSetState (m : ℝ) : DPState := ⟨m, Real.log m⟩

/-- `mass_existing_cluster` with `log = false`, dirichlet_mixing.cc:55-58. -/
def dpMassExisting (s : DPState) (n : ℕ) (propto : Bool) (card : ℕ) : ℝ :=
  if propto then 1.0 * card else (1.0 * card) / (n + s.totalmass)

/-- `mass_existing_cluster` with `log = true`, dirichlet_mixing.cc:52-54. -/
def dpLogMassExisting (s : DPState) (n : ℕ) (propto : Bool) (card : ℕ) : EReal :=
  if propto then logCard card else logCard card - stdLog (n + s.totalmass)

/-- `mass_new_cluster` with `log = false`, dirichlet_mixing.cc:70-73. -/
def dpMassNew (s : DPState) (n : ℕ) (propto : Bool) : ℝ :=
  if propto then s.totalmass else s.totalmass / (n + s.totalmass)

/-- `mass_new_cluster` with `log = true`, dirichlet_mixing.cc:67-69. -/
def dpLogMassNew (s : DPState) (n : ℕ) (propto : Bool) : EReal :=
  if propto then ((s.logtotmass : ℝ) : EReal)
  else ((s.logtotmass : ℝ) : EReal) - stdLog (n + s.totalmass)

/-! ## Pitman-Yor process (/repo/src/mixings/pityor_mixing.cc) -/

/-- `PitYor::State`, /repo/src/mixings/pityor_mixing.h:16-18. -/
structure PYState where
  strength : ℝ
  discount : ℝ

/-- `PitYorMixing::initialize_state` for a fixed value, pityor_mixing.cc:74-89. -/
def pyInit (strength discount : ℝ) : Except Fault PYState :=
  if strength ≤ -discount then .error .throw
  else if discount < 0 ∨ discount ≥ 1 then .error .throw
  else .ok ⟨strength, discount⟩

/-- `mass_existing_cluster`, `log = false`, pityor_mixing.cc:28-39. -/
def pyMassExisting (s : PYState) (n : ℕ) (propto : Bool) (card : ℕ) : ℝ :=
  if card = 0 then 0
  else if propto then card - s.discount else (card - s.discount) / (n + s.strength)

/-- `mass_existing_cluster`, `log = true`, pityor_mixing.cc:28-39. -/
def pyLogMassExisting (s : PYState) (n : ℕ) (propto : Bool) (card : ℕ) : EReal :=
  if card = 0 then ⊥
  else if propto then stdLog (card - s.discount)
  else stdLog (card - s.discount) - stdLog (n + s.strength)

/-- `mass_new_cluster`, `log = false`, pityor_mixing.cc:42-55. -/
def pyMassNew (s : PYState) (n nClust : ℕ) (propto : Bool) : ℝ :=
  if propto then s.strength + s.discount * nClust
  else (s.strength + s.discount * nClust) / (n + s.strength)

/-- `mass_new_cluster`, `log = true`, pityor_mixing.cc:42-55. -/
def pyLogMassNew (s : PYState) (n nClust : ℕ) (propto : Bool) : EReal :=
  if propto then stdLog (s.strength + s.discount * nClust)
  else stdLog (s.strength + s.discount * nClust) - stdLog (n + s.strength)

/-! ## Mixture of finite mixtures (/repo/src/mixings/mixture_finite_mixing.cc) -/

/-- The object: `gamma` and the mutable table `V` (`none` before
    `init_V_and_C`; an entry is `none` while it holds the mark `-1`),
    /repo/src/mixings/mixture_finite_mixing.h:16-18, 116-126.
    `lambda` only enters through the series, see `coef` below. -/
structure MFMState where
  gamma : ℝ
  table : Option (List (Option ℝ))

/-- `get_V_t`, mixture_finite_mixing.cc:158-167, with `init_V_and_C` (104-107:
    `n+1` marks, made once) and `compute_V_t` (122-156).  `coef t m` stands for
    the value of the truncated series computed for `t` and `m` data
    (see `Mixing/Series.lean` for the series itself).  Indexing outside of the
    vector is undefined behaviour.  Returns the value and the updated object. -/
def getV (coef : ℕ → ℕ → ℝ) (s : MFMState) (t n : ℕ) :
    Except Fault (ℝ × MFMState) := do
  let tab := s.table.getD (List.replicate (n + 1) none)
  let entry ← vget tab t
  match entry with
  | some v => .ok (v, { s with table := some tab })
  | none =>
      let v := coef t (n + 1)
      .ok (v, { s with table := some (tab.set t (some v)) })

/-- `mass_existing_cluster`, `log = false`, mixture_finite_mixing.cc:28-47. -/
def mfmMassExisting (coef : ℕ → ℕ → ℝ) (s : MFMState) (n nClust : ℕ)
    (propto : Bool) (card : ℕ) : Except Fault (ℝ × MFMState) := do
  let (v1, s) ← getV coef s nClust n
  let (v2, s) ← getV coef s (nClust + 1) n
  let out := card + s.gamma
  .ok (if propto then out else out / (n + nClust * s.gamma + v2 / v1 * s.gamma), s)

/-- `mass_existing_cluster`, `log = true`, mixture_finite_mixing.cc:28-47. -/
def mfmLogMassExisting (coef : ℕ → ℕ → ℝ) (s : MFMState) (n nClust : ℕ)
    (propto : Bool) (card : ℕ) : Except Fault (EReal × MFMState) := do
  let (v1, s) ← getV coef s nClust n
  let (v2, s) ← getV coef s (nClust + 1) n
  let out := stdLog (card + s.gamma)
  .ok (if propto then out
       else out - stdLog (n + nClust * s.gamma + v2 / v1 * s.gamma), s)

/-- `mass_new_cluster`, `log = false`, mixture_finite_mixing.cc:49-69. -/
def mfmMassNew (coef : ℕ → ℕ → ℝ) (s : MFMState) (n nClust : ℕ)
    (propto : Bool) : Except Fault (ℝ × MFMState) := do
  let (v1, s) ← getV coef s nClust n
  let (v2, s) ← getV coef s (nClust + 1) n
  let out := v2 / v1 * s.gamma
  .ok (if propto then out else out / (n + nClust * s.gamma + v2 / v1 * s.gamma), s)

/-- `mass_new_cluster`, `log = true`, mixture_finite_mixing.cc:49-69. -/
def mfmLogMassNew (coef : ℕ → ℕ → ℝ) (s : MFMState) (n nClust : ℕ)
    (propto : Bool) : Except Fault (EReal × MFMState) := do
  let (v1, s) ← getV coef s nClust n
  let (v2, s) ← getV coef s (nClust + 1) n
  let out := stdLog (v2 / v1 * s.gamma)
  .ok (if propto then out
       else out - stdLog (n + nClust * s.gamma + v2 / v1 * s.gamma), s)

/-! ## Truncated stick-breaking (/repo/src/mixings/truncated_sb_mixing.cc) -/

/-- Prior message: one Beta pair per component, a DP prior, a PY prior, or
    another case of the `oneof`. -/
inductive SBPrior where
  | betas (l : List (ℝ × ℝ))
  | dp (totalmass : ℝ)
  | py (strength discount : ℝ)
  | other

/-- `TruncSB::State` and `num_components` (truncated_sb_mixing.h:16-18,
    base_mixing.h:103). -/
structure SBState where
  sticks : List ℝ
  logweights : List EReal
  num : ℕ

/-- `cumsum[h]`, truncated_sb_mixing.cc:122-125: the sum of `log(1 - stick)`
    over the first `h` sticks. -/
def cumsum (sticks : List ℝ) : ℕ → EReal
  | 0 => 0
  | h + 1 => cumsum sticks h + stdLog (1 - sticks.getD h 0)

/-- `logweights_from_sticks`, truncated_sb_mixing.cc:120-132.  Reads the sticks
    `0 … num-1`; out of bounds if there are fewer sticks. -/
def logweightsFromSticks (num : ℕ) (sticks : List ℝ) : Except Fault (List EReal) :=
  if num ≤ sticks.length then
    .ok ((List.range num).map fun h => stdLog (sticks.getD h 0) + cumsum sticks h)
  else .error .ub

/-- `get_beta_params`, truncated_sb_mixing.cc:150-176. -/
def betaParams (prior : SBPrior) (num ind : ℕ) : Except Fault (ℝ × ℝ) :=
  match prior with
  | .betas l => if ind ≥ num then .error .throw else vget l ind
  | .dp m => .ok (1, m)
  | .py strength disc => .ok (1 - disc, strength + ind * disc)
  | .other => .error .throw

/-- The validity checks of `initialize_state`, truncated_sb_mixing.cc:84-111.
    For Beta priors the loop stops at `num_components - 1`. -/
def sbCheck (prior : SBPrior) (num : ℕ) : Except Fault Unit :=
  match prior with
  | .betas l =>
      if l.length ≠ num then .error .throw
      else if (l.take (num - 1)).any (fun ab => decide (ab.1 ≤ 0 ∨ ab.2 ≤ 0)) then
        .error .throw
      else .ok ()
  | .dp m => if m ≤ 0 then .error .throw else .ok ()
  | .py strength disc =>
      if strength ≤ -disc then .error .throw
      else if disc < 0 ∨ disc ≥ 1 then .error .throw
      else .ok ()
  | .other => .error .throw

/-- `get_prior_shape_parameters`, truncated_sb_mixing.cc:140-148. -/
def priorShapes (prior : SBPrior) (num : ℕ) : Except Fault (List (ℝ × ℝ)) :=
  (List.range num).mapM (betaParams prior num)

/-- `initialize_state`, truncated_sb_mixing.cc:80-118. -/
def sbInit (prior : SBPrior) (num : ℕ) : Except Fault SBState := do
  sbCheck prior num
  let shapes ← priorShapes prior num
  let sticks := shapes.map fun ab => ab.1 / (ab.1 + ab.2)
  let lw ← logweightsFromSticks num sticks
  .ok ⟨sticks, lw, num⟩

/-- `stan::math::beta_rng(a, b)`: throws unless both shapes are positive;
    `draw` is the generator, an arbitrary function of the shapes. -/
def betaRng (a b : ℝ) (draw : ℝ → ℝ → ℝ) : Except Fault ℝ :=
  if 0 < a ∧ 0 < b then .ok (draw a b) else .error .throw

/-- New value of stick `i`, truncated_sb_mixing.cc:35-43: `cards` are the
    cluster cardinalities, the second shape counts the data in later clusters. -/
def drawStick (shapes : List (ℝ × ℝ)) (cards : List ℕ) (draws : ℕ → ℝ → ℝ → ℝ) (i : ℕ) :
    Except Fault ℝ := do
  let ab ← vget shapes i
  let ci ← vget cards i
  betaRng (ab.1 + ci) (ab.2 + (cards.drop (i + 1)).sum) (draws i)

/-- Writing the new sticks, truncated_sb_mixing.cc:42-47: `state.sticks(i)` is
    out of bounds if there are fewer sticks than components, and so is the
    last stick of no components. -/
def storeSticks (s : SBState) (infinite : Bool) (new : List ℝ) : Except Fault (List ℝ) :=
  if s.sticks.length < s.num then .error .ub
  else if infinite then .ok (new ++ s.sticks.drop s.num)
  else if s.num = 0 then .error .ub
  else .ok ((new ++ s.sticks.drop s.num).set (s.num - 1) 1)

/-- `update_state`, truncated_sb_mixing.cc:19-50.  `cards` are the cardinalities
    of the unique values, `infinite` is `is_infinite_mixture()`. -/
def sbUpdate (s : SBState) (prior : SBPrior) (infinite : Bool) (cards : List ℕ)
    (draws : ℕ → ℝ → ℝ → ℝ) : Except Fault SBState :=
  if cards.length ≠ s.num then .error .assertFail
  else do
    let shapes ← priorShapes prior s.num
    let new ← (List.range s.num).mapM (drawStick shapes cards draws)
    let sticks ← storeSticks s infinite new
    let lw ← logweightsFromSticks s.num sticks
    .ok { s with sticks := sticks, logweights := lw }

/-- `mixing_weights(log = false)`, truncated_sb_mixing.cc:52-59. -/
def sbWeights (s : SBState) : List ℝ := s.logweights.map stdExp

/-- `set_state_from_proto` / `set_sticks`, truncated_sb_mixing.cc:61-68, 134-138. -/
def sbSetSticks (sticks : List ℝ) : Except Fault SBState := do
  let lw ← logweightsFromSticks sticks.length sticks
  .ok ⟨sticks, lw, sticks.length⟩

/-- One stick appended by `keep_breaking`, truncated_sb_mixing.cc:182-185. -/
def breakStick (prior : SBPrior) (num : ℕ) (draws : ℕ → ℝ → ℝ → ℝ) (h : ℕ) :
    Except Fault ℝ := do
  let ab ← betaParams prior num (num + h)
  betaRng ab.1 ab.2 (draws h)

/-- `keep_breaking(num_sticks)`, truncated_sb_mixing.cc:178-189: new object and
    returned value.  The sticks are first resized to `num_components + k`
    (keeping the first `num_components`), then the tail is drawn. -/
def keepBreaking (s : SBState) (prior : SBPrior) (k : ℕ) (draws : ℕ → ℝ → ℝ → ℝ) :
    Except Fault (SBState × ℝ) := do
  let prevSum := (sbWeights s).sum
  let new ← (List.range k).mapM (breakStick prior s.num draws)
  let sticks := s.sticks.take s.num ++ new
  let lw ← logweightsFromSticks (s.num + k) sticks
  let s' : SBState := ⟨sticks, lw, s.num + k⟩
  .ok (s', (sbWeights s').sum - prevSum)

/-! ## Logit stick-breaking (/repo/src/mixings/logit_sb_mixing.cc) -/

/-- The inline `sigmoid(x) = 1 / (1 + exp(-x))`, /repo/src/mixings/logit_sb_mixing.h:95. -/
def sigmoid (x : ℝ) : ℝ := 1.0 / (1.0 + Real.exp (-x))

/-- `cumsum[h]`, logit_sb_mixing.cc:63-67. -/
def logitCumsum (eta : List ℝ) : ℕ → EReal
  | 0 => 0
  | h + 1 => logitCumsum eta h + stdLog (sigmoid (-(eta.getD h 0)))

/-- `mixing_weights(log = true)`, logit_sb_mixing.cc:54-78, for `num ≥ 1`
    components, coefficient columns `coefs` and covariate row `x` (both of
    length `d`). -/
def logitLogWeights {d : ℕ} (num : ℕ) (coefs : List (Fin d → ℝ)) (x : Fin d → ℝ) :
    Except Fault (List EReal) :=
  if num = 0 ∨ coefs.length < num - 1 then .error .ub
  else
    let eta := (coefs.take (num - 1)).map (fun c => x ⬝ᵥ c) ++ [1.0]
    .ok ((List.range num).map fun h =>
      stdLog (sigmoid (eta.getD h 0)) + logitCumsum eta h)

/-- `mixing_weights(log = false)`, logit_sb_mixing.cc:54-78. -/
def logitWeights {d : ℕ} (num : ℕ) (coefs : List (Fin d → ℝ)) (x : Fin d → ℝ) :
    Except Fault (List ℝ) := do
  let lw ← logitLogWeights num coefs x
  .ok (lw.map stdExp)

/-- One datum of the logit regression of a component: its covariate row and
    its allocation. -/
abbrev LogitDatum (d : ℕ) := (Fin d → ℝ) × ℕ

/-- One iteration of the loop of `full_cond_lpdf`, logit_sb_mixing.cc:134-141. -/
def fullCondStep {d : ℕ} (alpha : Fin d → ℝ) (clust : ℕ) (like : ℝ)
    (datum : LogitDatum d) : ℝ :=
  if clust ≤ datum.2 then
    let isCurr : ℝ := if datum.2 = clust then 1 else 0
    let prob := sigmoid (datum.1 ⬝ᵥ alpha)
    like + (isCurr * Real.log prob + (1.0 - isCurr) * Real.log (1.0 - prob))
  else like

/-- `full_cond_lpdf`, logit_sb_mixing.cc:126-143. -/
def fullCond {d : ℕ} (mean : Fin d → ℝ) (prec : Matrix (Fin d) (Fin d) ℝ)
    (data : List (LogitDatum d)) (clust : ℕ) (alpha : Fin d → ℝ) : ℝ :=
  data.foldl (fullCondStep alpha clust)
    (-0.5 * ((alpha - mean) ⬝ᵥ (prec.mulVec (alpha - mean))))

/-- One iteration of the loop of `grad_full_cond_lpdf`, logit_sb_mixing.cc:153-158. -/
def gradStep {d : ℕ} (alpha : Fin d → ℝ) (clust : ℕ) (grad : Fin d → ℝ)
    (datum : LogitDatum d) : Fin d → ℝ :=
  if clust ≤ datum.2 then
    let isCurr : ℝ := if datum.2 = clust then 1 else 0
    let prob := sigmoid (datum.1 ⬝ᵥ alpha)
    grad + (isCurr - prob) • datum.1
  else grad

/-- `grad_full_cond_lpdf`, logit_sb_mixing.cc:145-160. -/
def gradFullCond {d : ℕ} (mean : Fin d → ℝ) (prec : Matrix (Fin d) (Fin d) ℝ)
    (data : List (LogitDatum d)) (clust : ℕ) (alpha : Fin d → ℝ) : Fin d → ℝ :=
  data.foldl (gradStep alpha clust) (prec.mulVec (mean - alpha))

/-- `prop_mean`, logit_sb_mixing.cc:33-34, for a gradient function `g`. -/
def propMean {d : ℕ} (step : ℝ) (g : (Fin d → ℝ) → Fin d → ℝ) (c : Fin d → ℝ) :
    Fin d → ℝ := c + step • g c

/-- `prop_var`, logit_sb_mixing.cc:28. -/
def propVar (step : ℝ) : ℝ := Real.sqrt (2.0 * step)

/-- `log_accept_ratio`, logit_sb_mixing.cc:39-44, of a move from `c` to `prop`:
    `f` is the log full conditional, `g` its gradient. -/
def logAccept {d : ℕ} (step : ℝ) (f : (Fin d → ℝ) → ℝ)
    (g : (Fin d → ℝ) → Fin d → ℝ) (c prop : Fin d → ℝ) : ℝ :=
  let m := propMean step g c
  let fullCondRatio := f prop - f c
  let propRatio := (-0.5 / propVar step) *
    ((prop - m) ⬝ᵥ (prop - m) - (c - m) ⬝ᵥ (c - m))
  fullCondRatio - propRatio

end
end Bayesmix.Mixing
