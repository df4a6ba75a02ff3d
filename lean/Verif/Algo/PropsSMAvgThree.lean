import Verif.Algo.PropsSMThree
import Verif.Algo.PropsSMAvg
import Verif.Algo.FinChainLimit

/-!
# C131: averages over split-merge runs with a positive discount
-/

namespace Bayesmix.Chain
open Bayesmix Cond Gibbs SplitMerge Slice Mixing Hierarchies MeasureTheory ENNReal

variable {G H Θ : Type} [AddCommGroup G]

/-- With at least one full scan per iteration, runs converge and averages are consistent, for some
law of the partition that an iteration keeps. -/
theorem sm_some_limit {E : Env G H Θ} {S : Scores H} {n : ℕ} {h0 : H} {π : List ℕ → ℝ}
    (T : Target E S n h0 π) (nRestr nMh : ℕ) {nFull : ℕ} (hf : 1 ≤ nFull) {K : ℕ} (hK : 0 < K)
    (hKn : K ≤ n) (θ0 : Θ) :
    ∃ π' : List ℕ → ℝ, (∀ σ : Setoid (Fin n), 0 < weight π' σ) ∧
      ∑ σ : Setoid (Fin n), weight π' σ = 1 ∧
      Invariant (weight π') (smK E S h0 nRestr n nMh nFull π) ∧
      SMConvergesTo E S nRestr nMh nFull K n h0 θ0 π' ∧
      SMConsistent E S nRestr nMh nFull K n h0 θ0 π' := by
  obtain ⟨s0, -, hs0⟩ := init_good (E := E) T.kind hK hKn h0 θ0 ⟨fun _ => 0, fun _ => 0⟩
    (u := ⟨θ0, 0, ∅, 0, false, none⟩) rfl
  have g1 := (mhK_stochastic T hs0 nRestr).pow nMh
  have hst : Stochastic (smK E S h0 nRestr n nMh nFull π) := g1.mul (T.stochastic.pow nFull)
  have hpos : ∀ σ τ, 0 < smK E S h0 nRestr n nMh nFull π σ τ := by
    refine mul_pos_of g1 ?_
    obtain ⟨k, rfl⟩ : ∃ k, nFull = k + 1 := ⟨nFull - 1, by omega⟩
    rw [pow_succ]
    exact mul_pos_of (T.stochastic.pow k) (sweep_pos T.weight_pos)
  obtain ⟨w, w0, w1, wi⟩ := exists_invariant hst hpos
  have wpos : ∀ σ, 0 < w σ := by
    intro σ
    rw [← wi σ]
    obtain ⟨τ, hτ⟩ : ∃ τ, 0 < w τ := by
      by_contra hcon
      push Not at hcon
      have : ∑ x, w x ≤ 0 := Finset.sum_nonpos fun x _ => hcon x
      linarith
    exact lt_of_lt_of_le (mul_pos hτ (hpos τ σ)) (Finset.single_le_sum
      (f := fun x => w x * smK E S h0 nRestr n nMh nFull π x σ)
      (fun x _ => mul_nonneg (w0 x) (hpos x σ).le) (Finset.mem_univ τ))
  have e : weight (fun al => w (partOf n al)) = w := funext fun σ => by
    rw [weight, partOf_labelsOf]
  refine ⟨fun al => w (partOf n al), by rw [e]; exact wpos, by rw [e]; exact w1, by rw [e]; exact wi, ?_, ?_⟩
  · obtain ⟨δ, d0, d1, hc⟩ := law_converges (π := fun al => w (partOf n al)) hst hpos
      (by rw [e]; exact wpos) (by rw [e]; exact wi) (T.smChain nRestr nMh nFull)
    refine ⟨δ, d0, d1, fun zi u hu => ?_⟩
    obtain ⟨s0, e0, hs0⟩ := init_good (E := E) T.kind hK hKn h0 θ0 zi hu
    exact ⟨s0, e0, hc s0 hs0⟩
  · obtain ⟨δ, d0, d1, hc⟩ := law_averages (π := fun al => w (partOf n al)) (T.smIter nRestr nMh nFull)
      hst hpos (by rw [e]; exact wpos) (by rw [e]; exact wi)
    refine ⟨δ, d0, d1, fun zi u hu => ?_⟩
    obtain ⟨s0, e0, hs0⟩ := init_good (E := E) T.kind hK hKn h0 θ0 zi hu
    exact ⟨s0, e0, hc s0 hs0⟩

/-- **C131, two rows.** With two rows and at least one full scan per iteration averages are consistent
for every discount. Missing: more rows with a positive discount, for which
`c131_three_rows_violated` refutes the claim. -/
theorem c131_two_rows_partial [MeasurableSpace Θ] (E : Env G H Θ)
    (hfix : ∀ h l r, E.hyperUpdate h l r = h) (hk : E.kind ≠ .other) (like : Θ → ℕ → ℝ)
    (pred : H → ℕ → ℝ) (ν : H → Measure Θ) (V : H → Prop) (C : Conjugate E like pred ν V)
    {a b : ℝ} {py : PYState} (hpy : pyInit a b = .ok py) (nRestr nMh nFull : ℕ) (hf : 1 ≤ nFull)
    (K : ℕ) (hK : 0 < K) (hKn : K ≤ 2) (h0 : H) (hv : V h0) (θ0 : Θ) :
    SMConsistent E (pyScores pred py) nRestr nMh nFull K 2 h0 θ0
      (mixPosterior (pyPrior py) like (ν h0)) := by
  have hconv := c129_two_rows_partial E hfix hk like pred ν V C hpy nRestr nMh nFull hf K hK hKn h0 hv θ0
  have hm := margLik_intLik C hv (pyScores pred py) rfl
  have e : pyPosterior py (fun D => Real.log (intLik like (ν h0) D)) =
      mixPosterior (pyPrior py) like (ν h0) := funext fun al => posterior_mix C hv _ _ al
  rw [← e] at hconv ⊢
  have T := py_target E hfix hk pred hpy (le_refl 2) hm
  have hinv := hconv.invariant T hK hKn
  obtain ⟨s0, -, hs0⟩ := init_good (E := E) T.kind hK hKn h0 θ0 ⟨fun _ => 0, fun _ => 0⟩
    (u := ⟨θ0, 0, ∅, 0, false, none⟩) rfl
  have g1 := (mhK_stochastic T hs0 nRestr).pow nMh
  obtain ⟨δ, d0, d1, hc⟩ := law_averages (T.smIter nRestr nMh nFull) (g1.mul (T.stochastic.pow nFull))
    (by
      refine mul_pos_of g1 ?_
      obtain ⟨k, rfl⟩ : ∃ k, nFull = k + 1 := ⟨nFull - 1, by omega⟩
      rw [pow_succ]
      exact mul_pos_of (T.stochastic.pow k) (sweep_pos T.weight_pos)) T.weight_pos hinv
  refine ⟨δ, d0, d1, fun zi u hu => ?_⟩
  obtain ⟨s0, e0, hs0⟩ := init_good (E := E) T.kind hK hKn h0 θ0 zi hu
  exact ⟨s0, e0, hc s0 hs0⟩

/-- Laws that give every partition the same probability are proportional. -/
theorem weight_of_postProb {n : ℕ} {π π' : List ℕ → ℝ} (h' : ∑ σ : Setoid (Fin n), weight π' σ = 1)
    (h : ∀ A : Finset (Setoid (Fin n)), postProb n π' A = postProb n π A) (σ : Setoid (Fin n)) :
    weight π' σ = weight π σ / ∑ τ : Setoid (Fin n), weight π τ := by
  have := h {σ}
  simp only [postProb, Finset.sum_singleton] at this
  change weight π' σ / (∑ τ : Setoid (Fin n), weight π' τ) = _ at this
  rw [h', div_one] at this
  exact this

open Classical in
/-- **C131, Pitman-Yor process, violation.** On three rows, with a positive discount, at least one
Metropolis-Hastings update and one full scan per iteration, there are a set of partitions and a positive
`γ` such that the share of the stored iterations with partition in the set is within `γ` of its
posterior probability only with probability at most `2 / (δ k γ²)`, `k` the number of stored
iterations: for all strengths except at most three, which depend on the data. -/
theorem c131_three_rows_violated [MeasurableSpace Θ] (E : Env G H Θ)
    (hfix : ∀ h l r, E.hyperUpdate h l r = h) (hk : E.kind ≠ .other) (like : Θ → ℕ → ℝ)
    (pred : H → ℕ → ℝ) (ν : H → Measure Θ) (V : H → Prop) (C : Conjugate E like pred ν V)
    {b : ℝ} (hb : 0 < b) (h0 : H) (hv : V h0) :
    ∃ X : Finset ℝ, X.card ≤ 3 ∧ ∀ (a : ℝ) (py : PYState), a ∉ X → pyInit a b = .ok py →
      ∀ (nRestr nMh nFull K : ℕ) (θ0 : Θ), 1 ≤ nMh → 1 ≤ nFull → 0 < K → K ≤ 3 →
        ∃ (A : Finset (Setoid (Fin 3))) (γ δ : ℝ), 0 < γ ∧ 0 < δ ∧
          ∀ (zi : InitNoise) (u : Hier G H Θ), u.saved = false →
            ∃ s0, initAlloc E true K 3 h0 θ0 zi [u] = .ok s0 ∧
            ∀ (burnin : ℕ) (zs : List RestNoise), burnin < zs.length →
              ∃ l, smRun E (pyScores pred py) nRestr 3 nMh nFull burnin zs s0 = .ok l ∧
                l.prob (fun x => |((x.2.countP fun t => partOf 3 t.alloc ∈ A) : ℝ) / x.2.length -
                  postProb 3 (mixPosterior (pyPrior py) like (ν h0)) A| < γ) ≤
                  2 / (δ * ((zs.length - burnin : ℕ) : ℝ) * γ ^ 2) := by
  obtain ⟨X, hX, h⟩ := three_exceptional E hfix hk pred hb h0 (fun D => Real.log (intLik like (ν h0) D))
    fun py => margLik_intLik C hv (pyScores pred py) rfl
  refine ⟨X, hX, fun a py ha hpy nRestr nMh nFull K θ0 hmh hf hK hKn => ?_⟩
  have e : pyPosterior py (fun D => Real.log (intLik like (ν h0) D)) =
      mixPosterior (pyPrior py) like (ν h0) := funext fun al => posterior_mix C hv _ _ al
  have T := py_target E hfix hk pred hpy (by omega : 2 ≤ 3) (margLik_intLik C hv (pyScores pred py) rfl)
  obtain ⟨π', -, hs, hi, -, hc⟩ := sm_some_limit T nRestr nMh hf hK hKn θ0
  have hA : ∃ A, postProb 3 π' A ≠ postProb 3 (mixPosterior (pyPrior py) like (ν h0)) A := by
    by_contra hcon
    push Not at hcon
    rw [← e] at hcon
    refine h a py ha hpy nRestr nMh nFull θ0 hmh fun τ => ?_
    have hw := weight_of_postProb hs hcon
    have hZ : 0 < ∑ σ : Setoid (Fin 3), weight (pyPosterior py fun D =>
        Real.log (intLik like (ν h0) D)) σ :=
      Finset.sum_pos (fun σ _ => T.weight_pos σ) Finset.univ_nonempty
    have := hi τ
    simp only [hw, div_mul_eq_mul_div] at this
    rw [← Finset.sum_div, div_left_inj' hZ.ne'] at this
    exact this
  obtain ⟨A, hA⟩ := hA
  exact ⟨A, hc.far hA⟩

example (y : ℕ → ℝ) (draw : NIG → ℕ → UniLS) (θ0 : UniLS) :
    SMConsistent (nnigEnv y draw fun h _ _ => h)
      (pyScores (fun h i => nnigMargLpdf h (y i)) ⟨1, 1 / 2⟩) 5 1 1 1 2 ⟨0, 1, 2, 1⟩ θ0
      (mixPosterior (pyPrior ⟨1, 1 / 2⟩) (fun st i => uniNormLpdf st (y i)) (nigLaw ⟨0, 1, 2, 1⟩)) :=
  c131_two_rows_partial _ (fun _ _ _ => rfl) (by simp [nnigEnv]) _ _ nigLaw NigValid
    (nnig_conjugate y draw _) (a := 1) (b := 1 / 2) (by norm_num [pyInit]) 5 1 1 le_rfl 1
    (by omega) (by omega) ⟨0, 1, 2, 1⟩ (by norm_num [NigValid]) θ0

open Classical in
example (y : ℕ → ℝ) (draw : NIG → ℕ → UniLS) :
    ∃ X : Finset ℝ, X.card ≤ 3 ∧ ∀ (a : ℝ) (py : PYState), a ∉ X → pyInit a (1 / 2) = .ok py →
      ∀ θ0 : UniLS, ∃ (A : Finset (Setoid (Fin 3))) (γ δ : ℝ), 0 < γ ∧ 0 < δ ∧
        ∀ (zi : InitNoise) (u : Hier (ℝ × ℝ) NIG UniLS), u.saved = false → ∃ s0,
          ∀ (burnin : ℕ) (zs : List RestNoise), burnin < zs.length →
            ∃ l, smRun (nnigEnv y draw fun h _ _ => h) (pyScores (fun h i => nnigMargLpdf h (y i)) py)
                5 3 1 1 burnin zs s0 = .ok l ∧
              l.prob (fun x => |((x.2.countP fun t => partOf 3 t.alloc ∈ A) : ℝ) / x.2.length -
                postProb 3 (mixPosterior (pyPrior py) (fun st i => uniNormLpdf st (y i))
                  (nigLaw ⟨0, 1, 2, 1⟩)) A| < γ) ≤ 2 / (δ * ((zs.length - burnin : ℕ) : ℝ) * γ ^ 2) := by
  obtain ⟨X, hX, h⟩ := c131_three_rows_violated (nnigEnv y draw fun h _ _ => h)
    (fun _ _ _ => rfl) (by simp [nnigEnv]) _ _ nigLaw NigValid
    (nnig_conjugate y draw _) (b := 1 / 2) (by norm_num) ⟨0, 1, 2, 1⟩ (by norm_num [NigValid])
  refine ⟨X, hX, fun a py ha hpy θ0 => ?_⟩
  obtain ⟨A, γ, δ, h0, h1, h⟩ := h a py ha hpy 5 1 1 1 θ0 le_rfl le_rfl one_pos (by omega)
  refine ⟨A, γ, δ, h0, h1, fun zi u hu => ?_⟩
  obtain ⟨s0, -, h⟩ := h zi u hu
  exact ⟨s0, h⟩

end Bayesmix.Chain
