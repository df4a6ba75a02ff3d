import Verif.Algo.Density
import Verif.Alloc.Model

/-!
# Marginal samplers that ask the mixing for its masses

`Alloc/Model.lean` draws the new label from an arbitrary stream. Here the update of a row also
evaluates the masses of the mixing, which may fail and which may change the mutable members of the
mixing. The value drawn stays arbitrary: the probabilities are a softmax, all positive.
-/

namespace Bayesmix.Density
open Bayesmix.Mixing

noncomputable section

variable {G H Θ σ : Type}

/-- Dirichlet process, `propto = true`. -/
def dpProptoOps : MixOps DPState :=
  ⟨fun s n _ c => .ok (dpLogMassExisting s n true c, s), fun s n _ => .ok (dpLogMassNew s n true, s)⟩

/-- Pitman-Yor process, `propto = true`. -/
def pyProptoOps : MixOps PYState :=
  ⟨fun s n _ c => .ok (pyLogMassExisting s n true c, s), fun s n k => .ok (pyLogMassNew s n k true, s)⟩

/-- Mixture of finite mixtures, `propto = true`. -/
def mfmProptoOps (coef : ℕ → ℕ → ℝ) : MixOps MFMState :=
  ⟨fun s n k c => mfmLogMassExisting coef s n k true c, fun s n k => mfmLogMassNew coef s n k true⟩

/-- The last `m` entries of `get_cluster_prior_mass`: one in `neal2_algorithm.cc` 88-89, one per
auxiliary block in `neal8_algorithm.cc` 120-123. -/
def newMasses (M : MixOps σ) (n k : ℕ) : σ → ℕ → Except Fault (List EReal × σ)
  | mx, 0 => .ok ([], mx)
  | mx, m + 1 => do
      let a ← M.new mx n k
      let b ← newMasses M n k a.2 m
      .ok (a.1 :: b.1, b.2)

/-- `get_cluster_prior_mass`, `neal2_algorithm.cc` 76-92 (`m = 1`) and `neal8_algorithm.cc` 108-125
(`m` auxiliary blocks), in the state `s1` without the row that is moved. -/
def priorMasses (M : MixOps σ) (n m : ℕ) (mx : σ) (s1 : Alg G H Θ) :
    Except Fault (List EReal × σ) := do
  let a ← existingMasses M (n - 1) s1.clus.length mx (s1.clus.map fun o => o.card.toNat)
  let b ← newMasses M (n - 1) s1.clus.length a.2 m
  .ok (a.1 ++ b.1, b.2)

/-- The update of row `i` in Neal2 and Neal3 (`neal2_algorithm.cc` 29-61) with the masses of the mixing
(line 42). -/
def massDatum [AddGroup G] (E : Env G H Θ) (M : MixOps σ) (upd : Bool) (n : ℕ) (x : σ × Alg G H Θ)
    (i rc rd : ℕ) : Except Fault (σ × Alg G H Θ) := do
  let (s1, _, _) ← detach E upd x.2 i
  let a ← priorMasses M n 1 x.1 s1
  let s' ← neal2Datum E upd x.2 i rc rd
  .ok (a.2, s')

/-- `Neal2Algorithm::sample_allocations`, `neal2_algorithm.cc` 24-62. -/
def massAllocations [AddGroup G] (E : Env G H Θ) (M : MixOps σ) (upd : Bool) (n : ℕ)
    (ω : ℕ → ℕ × ℕ) (x : σ × Alg G H Θ) : Except Fault (σ × Alg G H Θ) :=
  (List.range n).foldlM (fun x i => massDatum E M upd n x i (ω i).1 (ω i).2) x

/-- `BaseAlgorithm::step` (`base_algorithm.h` 179-184) for Neal2 and Neal3; `U` is
`mixing->update_state`, given the randomness of the iteration. -/
def massStep [AddGroup G] (E : Env G H Θ) (M : MixOps σ) (U : σ → Alg G H Θ → Noise → σ) (upd : Bool)
    (n : ℕ) (x : σ × Alg G H Θ) (z : Noise) : Except Fault (σ × Alg G H Θ) := do
  let x ← massAllocations E M upd n z.cat x
  let s ← sampleUniqueValues E upd z.uv x.2
  let s ← updateHypers E z.hyp s
  .ok (U x.1 s z, s)

/-- The update of row `i` in Neal8 (`neal8_algorithm.cc` 47-89) with the masses of the mixing. -/
def massDatum8 [AddGroup G] (E : Env G H Θ) (M : MixOps σ) (n : ℕ) (x : σ × Alg8 G H Θ)
    (i rc : ℕ) (ra : ℕ → ℕ) : Except Fault (σ × Alg8 G H Θ) := do
  let (s1, _, _) ← detach E false x.2.base i
  let a ← priorMasses M n x.2.aux.length x.1 s1
  let s' ← neal8Datum E x.2 i rc ra
  .ok (a.2, s')

/-- `Neal8Algorithm::sample_allocations`, `neal8_algorithm.cc` 41-90. -/
def massAllocations8 [AddGroup G] (E : Env G H Θ) (M : MixOps σ) (n : ℕ) (ω : ℕ → ℕ × ℕ)
    (ra : ℕ → ℕ → ℕ) (x : σ × Alg8 G H Θ) : Except Fault (σ × Alg8 G H Θ) :=
  (List.range n).foldlM (fun x i => massDatum8 E M n x i (ω i).1 (ra i)) x

/-- One iteration of Neal8 (`base_algorithm.h` 179-184). -/
def massStep8 [AddGroup G] (E : Env G H Θ) (M : MixOps σ) (U : σ → Alg8 G H Θ → Noise → σ) (n : ℕ)
    (x : σ × Alg8 G H Θ) (z : Noise) : Except Fault (σ × Alg8 G H Θ) := do
  let x ← massAllocations8 E M n z.cat z.aux x
  let b ← sampleUniqueValues E false z.uv x.2.base
  let b ← updateHypers E z.hyp b
  .ok (U x.1 { x.2 with base := b } z, { x.2 with base := b })

end

end Bayesmix.Density
