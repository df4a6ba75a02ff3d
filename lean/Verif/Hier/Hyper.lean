import Verif.Hier.Checks

/-!
# Updates of the hyperparameters

`update_hypers()` of the Normal-Inverse-Gamma and Normal-Wishart priors, given the states of the
clusters. Random generators are arbitrary functions of their parameters; they throw when a
parameter is outside its domain, as the Stan Math generators do. A variance of the prior of the
mean that is zero (accepted by `nig_prior_model.cc`) makes the code divide by zero; the theorems
exclude it.
-/

namespace Bayesmix.Hierarchies

open Real Matrix

variable {d : ℕ}

/-- `stan::math::normal_rng`. -/
noncomputable def normalRngChk (g : ℝ → ℝ → ℝ) (mu sigma : ℝ) : Except Fault ℝ :=
  if sigma ≤ 0 then .error .throw else .ok (g mu sigma)

/-- `stan::math::gamma_rng`. -/
noncomputable def gammaRngChk (g : ℝ → ℝ → ℝ) (shape rate : ℝ) : Except Fault ℝ :=
  if shape ≤ 0 then .error .throw
  else if rate ≤ 0 then .error .throw
  else .ok (g shape rate)

open Classical in
/-- `stan::math::multi_normal_prec_rng` and `multi_normal_rng`: the matrix must be symmetric
positive definite. -/
noncomputable def multiNormalRngChk (g : (Fin d → ℝ) → Matrix (Fin d) (Fin d) ℝ → Fin d → ℝ)
    (mu : Fin d → ℝ) (s : Matrix (Fin d) (Fin d) ℝ) : Except Fault (Fin d → ℝ) :=
  if s.PosDef then .ok (g mu s) else .error .throw

/-- `stan::math::inv_wishart_rng`: the degrees of freedom must exceed `dim - 1`. -/
noncomputable def invWishartRngChk
    (g : ℝ → Matrix (Fin d) (Fin d) ℝ → Matrix (Fin d) (Fin d) ℝ)
    (nu : ℝ) (s : Matrix (Fin d) (Fin d) ℝ) : Except Fault (Matrix (Fin d) (Fin d) ℝ) :=
  if nu ≤ d - 1 then .error .throw else .ok (g nu s)

/-! ### Normal-Inverse-Gamma, `src/hierarchies/priors/nig_prior_model.cc` -/

/-- Mean and standard deviation handed to the generator with a Normal prior on the mean, lines
106-124. -/
noncomputable def nigMeanParams (mu00 sig200 lambda0 : ℝ) (states : List UniLS) : ℝ × ℝ :=
  let prec := (states.map (fun st => 1 / st.var)).sum
  let num := (states.map (fun st => st.mean / st.var)).sum
  let prec := 1 / sig200 + lambda0 * prec
  let num := mu00 / sig200 + lambda0 * num
  (num / prec, sqrt (1 / prec))

/-- Mean and second parameter handed to the normal generator with the Normal-Gamma-Gamma prior,
lines 139-157. -/
noncomputable def nggMeanParams (mu00 sig200 : ℝ) (h : NIG) (states : List UniLS) : ℝ × ℝ :=
  let bn := (states.map (fun st => 1 / st.var)).sum
  let num := (states.map (fun st => st.mean / st.var)).sum
  let var := h.varScaling * bn + 1 / sig200
  let num := h.varScaling * num + mu00 / sig200
  (num / var, 1 / var)

/-- Shape and rate handed to the generator of the scaling, lines 141-158. The mean is the one
before the update. -/
noncomputable def nggScalingParams (alpha00 beta00 : ℝ) (h : NIG) (states : List UniLS) : ℝ × ℝ :=
  let betan := (states.map (fun st => (h.mean - st.mean) * (h.mean - st.mean) / st.var)).sum
  (alpha00 + 0.5 * states.length, beta00 + 0.5 * betan)

/-- Shape and rate handed to the generator of the scale, lines 139-159. -/
noncomputable def nggScaleParams (a00 b00 : ℝ) (h : NIG) (states : List UniLS) : ℝ × ℝ :=
  let bn := (states.map (fun st => 1 / st.var)).sum
  (a00 + states.length * h.shape, bn + b00)

/-- `NIGPriorModel::update_hypers`, lines 99-162. -/
noncomputable def nigUpdateHypers (p : NIGPrior) (h : NIG) (states : List UniLS)
    (normal gamma gamma' : ℝ → ℝ → ℝ) : Except Fault NIG :=
  match p with
  | .fixed _ _ _ _ => .ok h
  | .normalMean mu00 sig200 lambda0 _ _ => do
    let q := nigMeanParams mu00 sig200 lambda0 states
    let mean ← normalRngChk normal q.1 q.2
    .ok { h with mean := mean }
  | .ngg mu00 sig200 alpha00 beta00 a00 b00 _ => do
    let q := nggMeanParams mu00 sig200 h states
    let r := nggScalingParams alpha00 beta00 h states
    let s := nggScaleParams a00 b00 h states
    let mean ← normalRngChk normal q.1 q.2
    let varScaling ← gammaRngChk gamma r.1 r.2
    let scale ← gammaRngChk gamma' s.1 s.2
    .ok { h with mean := mean, varScaling := varScaling, scale := scale }
  | .unset => .error .throw

/-! ### Normal-Wishart, `src/hierarchies/priors/nw_prior_model.cc` -/

/-- Precision of the new mean, lines 160-169 and 192-200. -/
noncomputable def nwMeanPrec (sigma00 : Matrix (Fin d) (Fin d) ℝ) (h : NW d)
    (states : List (MultiLS d)) : Matrix (Fin d) (Fin d) ℝ :=
  h.varScaling • (states.map (fun st => st.prec)).sum + sigma00⁻¹

/-- The vector solved for the mean of the new mean, lines 161-170 and 193-202. -/
noncomputable def nwMeanNum (mu00 : Fin d → ℝ) (sigma00 : Matrix (Fin d) (Fin d) ℝ) (h : NW d)
    (states : List (MultiLS d)) : Fin d → ℝ :=
  h.varScaling • (states.map (fun st => st.prec *ᵥ st.mean)).sum + sigma00⁻¹ *ᵥ mu00

/-- Mean of the new mean, lines 171 and 204-205. -/
noncomputable def nwMeanMean (mu00 : Fin d → ℝ) (sigma00 : Matrix (Fin d) (Fin d) ℝ) (h : NW d)
    (states : List (MultiLS d)) : Fin d → ℝ :=
  (nwMeanPrec sigma00 h states)⁻¹ *ᵥ nwMeanNum mu00 sigma00 h states

/-- Shape and rate of the new scaling, lines 194-206. The mean is the one before the update. -/
noncomputable def ngiwScalingParams (alpha00 beta00 : ℝ) (h : NW d) (states : List (MultiLS d)) :
    ℝ × ℝ :=
  let betan := (states.map (fun st => (h.mean - st.mean) ⬝ᵥ (st.prec *ᵥ (h.mean - st.mean)))).sum
  (alpha00 + 0.5 * states.length, beta00 + 0.5 * betan)

/-- Degrees of freedom and scale of the new scale, lines 192-207. -/
noncomputable def ngiwScaleParams (nu00 : ℝ) (tau00 : Matrix (Fin d) (Fin d) ℝ) (h : NW d)
    (states : List (MultiLS d)) : ℝ × Matrix (Fin d) (Fin d) ℝ :=
  (nu00 + states.length * h.degFree, (states.map (fun st => st.prec)).sum + tau00)

/-- `NWPriorModel::update_hypers`, lines 143-220. -/
noncomputable def nwUpdateHypers (p : NWPrior d) (h : NW d) (states : List (MultiLS d))
    (mvPrec mvCov : (Fin d → ℝ) → Matrix (Fin d) (Fin d) ℝ → Fin d → ℝ) (gamma : ℝ → ℝ → ℝ)
    (invWishart : ℝ → Matrix (Fin d) (Fin d) ℝ → Matrix (Fin d) (Fin d) ℝ) :
    Except Fault (NW d) :=
  match p with
  | .fixed _ _ _ _ => .ok h
  | .normalMean mu00 sigma00 _ _ _ => do
    let _ ← inverseSpd sigma00
    let mean ← multiNormalRngChk mvPrec (nwMeanMean mu00 sigma00 h states)
      (nwMeanPrec sigma00 h states)
    .ok { h with mean := mean }
  | .ngiw mu00 sigma00 alpha00 beta00 nu00 tau00 _ => do
    let _ ← inverseSpd sigma00
    let sign ← inverseSpd (nwMeanPrec sigma00 h states)
    let mean ← multiNormalRngChk mvCov (sign *ᵥ nwMeanNum mu00 sigma00 h states) sign
    let r := ngiwScalingParams alpha00 beta00 h states
    let varScaling ← gammaRngChk gamma r.1 r.2
    let s := ngiwScaleParams nu00 tau00 h states
    let scale ← invWishartRngChk invWishart s.1 s.2
    let scaleInv ← inverseSpd scale
    .ok ⟨mean, varScaling, h.degFree, scale, scaleInv, lltU scale⟩
  | .unset => .error .throw

end Bayesmix.Hierarchies
