import Verif.Algo.DensRun

/-!
# Posterior means of density estimates for two rows
-/

namespace Bayesmix.Chain
open Bayesmix Cond Gibbs SplitMerge Slice Mixing Density Hierarchies MeasureTheory ENNReal

variable {G H Θ : Type} [AddCommGroup G] [MeasurableSpace Θ] {n : ℕ}

theorem blockLik_ne {E : Env G H Θ} {like : Θ → ℕ → ℝ} {ν : H → Measure Θ} {h : H}
    (hB : BayesClusters E like ν h) {D : Finset ℕ} (hD : D.Nonempty) :
    blockLik like (ν h) D ≠ 0 ∧ blockLik like (ν h) D ≠ ∞ := by
  obtain ⟨Z, z0, z1, hZ⟩ := hB.rule D hD
  have hp := hB.post D hD
  have := hZ (fun _ => 1) measurable_const
  simp only [mul_one, lintegral_const, measure_univ] at this
  unfold blockLik
  rw [this]
  exact ⟨z0, z1⟩

theorem blockLik_insert {E : Env G H Θ} {like : Θ → ℕ → ℝ} {pred : H → ℕ → ℝ} {ν : H → Measure Θ}
    {V : H → Prop} (C : Conjugate E like pred ν V) {h : H} (hv : V h) {D : Finset ℕ}
    (hD : D.Nonempty) {i : ℕ} (hi : i ∉ D) :
    blockLik like (ν h) (insert i D) = blockLik like (ν h) D *
      ENNReal.ofReal (Real.exp (pred (E.post h D.card (∑ j ∈ D, E.contrib j)) i)) := by
  have hB := C.clusters hv
  obtain ⟨Z, z0, z1, hZ⟩ := hB.rule D hD
  have hp := hB.post D hD
  have h1 := hZ (fun _ => 1) measurable_const
  simp only [mul_one, lintegral_const, measure_univ] at h1
  have hm : Measurable fun θ : Θ => ENNReal.ofReal (Real.exp (like θ i)) :=
    ENNReal.measurable_ofReal.comp (Real.measurable_exp.comp (C.meas i))
  have h2 := hZ _ hm
  rw [pred_int (C.row _ i (C.post hv D hD)), ← h1] at h2
  rw [blockLik, blockLik, ← h2]
  refine lintegral_congr fun θ => ?_
  rw [Finset.prod_insert hi, mul_comm, ENNReal.ofReal_mul (Finset.prod_nonneg fun _ _ =>
    (Real.exp_pos _).le)]

/-- The density weighted with the likelihood, for a partition. -/
theorem mixDens_lik {E : Env G H Θ} {like : Θ → ℕ → ℝ} {pred : H → ℕ → ℝ} {ν : H → Measure Θ}
    {V : H → Prop} (C : Conjugate E like pred ν V) {h : H} (hv : V h) (ce cn : ℕ → ℝ) (m : ℝ≥0∞)
    (σ : Setoid (Fin n)) :
    ∫⁻ θ : Quotient σ → Θ, likOn like Finset.univ (fun i => θ (Quotient.mk σ i)) *
      mixDens ce cn like m σ (fun i => θ (Quotient.mk σ i)) ∂Measure.pi (fun _ => ν h) =
    (∏ q, blockLik like (ν h) (blockRows σ q)) *
      ((∑ q, ENNReal.ofReal (ce (blockRows σ q).card) * ENNReal.ofReal (Real.exp
        (pred (E.post h (blockRows σ q).card (∑ j ∈ blockRows σ q, E.contrib j)) n))) +
        ENNReal.ofReal (cn (Fintype.card (Quotient σ))) * m) := by
  classical
  have hp := (C.row h 0 hv).prior
  have hnn : ∀ q, n ∉ blockRows σ q := fun q h => by
    unfold blockRows at h
    obtain ⟨i, -, e⟩ := Finset.mem_map.mp h
    have : i.val = n := e
    omega
  have e1 : ∀ θ : Quotient σ → Θ, likOn like Finset.univ (fun i => θ (Quotient.mk σ i)) *
      mixDens ce cn like m σ (fun i => θ (Quotient.mk σ i)) =
      ENNReal.ofReal (cn (Fintype.card (Quotient σ))) * m *
        likOn like Finset.univ (fun i => θ (Quotient.mk σ i)) +
      ∑ q : Quotient σ, ENNReal.ofReal (ce (blockRows σ q).card) *
        (likOn like Finset.univ (fun i => θ (Quotient.mk σ i)) *
          ENNReal.ofReal (Real.exp (like (θ q) n))) := by
    intro θ
    unfold mixDens
    simp only [Quotient.out_eq]
    rw [mul_add, Finset.mul_sum, add_comm]
    congr 1
    · ring
    · exact Finset.sum_congr rfl fun q _ => by ring
  have hml : Measurable fun θ : Quotient σ → Θ =>
      likOn like Finset.univ (fun i => θ (Quotient.mk σ i)) :=
    (measurable_likOn C.meas Finset.univ).comp (measurable_rows σ)
  have hmq : ∀ q : Quotient σ, Measurable fun θ : Quotient σ → Θ =>
      likOn like Finset.univ (fun i => θ (Quotient.mk σ i)) *
        ENNReal.ofReal (Real.exp (like (θ q) n)) := fun q =>
    hml.mul (ENNReal.measurable_ofReal.comp (Real.measurable_exp.comp
      ((C.meas n).comp (measurable_pi_apply _))))
  rw [lintegral_congr e1, lintegral_add_left (hml.const_mul _), lintegral_const_mul _ hml,
    lintegral_finsetSum _ fun q _ => (hmq q).const_mul _, mul_add, add_comm, Finset.mul_sum]
  congr 1
  · refine Finset.sum_congr rfl fun p _ => ?_
    rw [lintegral_const_mul _ (hmq p), likOn_times C.meas,
      ← Finset.mul_prod_erase Finset.univ _ (Finset.mem_univ p), if_pos rfl,
      blockLik_insert C hv (blockRows_nonempty σ p) (hnn p)]
    have : ∏ q ∈ Finset.univ.erase p, blockLik like (ν h) (if q = p then insert n (blockRows σ q)
        else blockRows σ q) = ∏ q ∈ Finset.univ.erase p, blockLik like (ν h) (blockRows σ q) :=
      Finset.prod_congr rfl fun q hq => by rw [if_neg (Finset.ne_of_mem_erase hq)]
    rw [this, ← Finset.mul_prod_erase Finset.univ (fun q => blockLik like (ν h) (blockRows σ q))
      (Finset.mem_univ p)]
    ring
  · rw [lintegral_congr fun θ : Quotient σ → Θ => likOn_blocks like σ θ,
      lintegral_prod_pi (fun _ : Quotient σ => ν h) _ fun q => measurable_blockLik C.meas _]
    unfold blockLik
    ring

/-! ### Partitions of two rows -/

theorem setoid_two (σ : Setoid (Fin 2)) : σ = ⊥ ∨ σ = ⊤ := by
  by_cases h : σ 0 1
  · right
    refine Setoid.ext fun a b => ⟨fun _ => trivial, fun _ => ?_⟩
    fin_cases a <;> fin_cases b
    · exact σ.refl _
    · exact h
    · exact σ.symm h
    · exact σ.refl _
  · left
    refine Setoid.ext fun a b => ⟨fun hab => ?_, fun hab => ?_⟩
    · fin_cases a <;> fin_cases b
      · rfl
      · exact absurd hab h
      · exact absurd (σ.symm hab) h
      · rfl
    · rw [show a = b from hab]

theorem sum_two {M : Type} [AddCommMonoid M] (f : Setoid (Fin 2) → M) :
    ∑ σ, f σ = f ⊤ + f ⊥ := by
  classical
  refine Fintype.sum_eq_add ⊤ ⊥ (fun e => ?_) fun σ hσ => ?_
  · have h : (⊤ : Setoid (Fin 2)) 0 1 := trivial
    rw [e] at h
    exact absurd (show (0 : Fin 2) = 1 from h) (by decide)
  · rcases setoid_two σ with h | h
    · exact absurd h hσ.2
    · exact absurd h hσ.1

theorem blockRows_top (q : Quotient (⊤ : Setoid (Fin 2))) : blockRows ⊤ q = {0, 1} := by
  ext y
  constructor
  · intro hy
    unfold blockRows at hy
    obtain ⟨k, -, rfl⟩ := Finset.mem_map.mp hy
    fin_cases k <;> simp
  · intro hy
    have h1 : y < 2 := by
      simp only [Finset.mem_insert, Finset.mem_singleton] at hy
      omega
    rw [show y = (⟨y, h1⟩ : Fin 2).val from rfl, mem_blockRows]
    refine Quotient.inductionOn q fun a => Quotient.sound trivial

theorem blockRows_bot (a : Fin 2) : blockRows ⊥ (Quotient.mk (⊥ : Setoid (Fin 2)) a) = {a.val} := by
  ext y
  constructor
  · intro hy
    have hy' := hy
    unfold blockRows at hy
    obtain ⟨k, -, rfl⟩ := Finset.mem_map.mp hy
    have h1 : k.val ∈ blockRows ⊥ (Quotient.mk (⊥ : Setoid (Fin 2)) a) := hy'
    rw [mem_blockRows] at h1
    have h2 : k = a := Quotient.exact h1
    rw [h2]
    exact Finset.mem_singleton_self _
  · intro hy
    rw [Finset.mem_singleton.mp hy, mem_blockRows]

theorem mk_bot_bijective : Function.Bijective (Quotient.mk (⊥ : Setoid (Fin 2))) :=
  ⟨fun _ _ h => Quotient.exact h, Quotient.mk_surjective⟩

theorem weight_top {β : ℝ} (hβ : 0 < β) : weight (dpPrior β) (⊤ : Setoid (Fin 2)) = (1 + β)⁻¹ := by
  rw [weight_prod (dpPrior_prod (n := 2) hβ (by omega))]
  have hc : Fintype.card (Quotient (⊤ : Setoid (Fin 2))) = 1 :=
    Fintype.card_eq_one_iff.mpr ⟨Quotient.mk _ 0, fun q =>
      Quotient.inductionOn q fun a => Quotient.sound trivial⟩
  have : ∏ q : Quotient (⊤ : Setoid (Fin 2)), pyB ⟨1, 0⟩ (blockRows ⊤ q).card = 1 :=
    Finset.prod_eq_one fun q _ => by rw [blockRows_top]; simp [pyB]
  rw [hc, this]
  simp [pyD, pyA]

theorem weight_bot {β : ℝ} (hβ : 0 < β) :
    weight (dpPrior β) (⊥ : Setoid (Fin 2)) = (1 + β)⁻¹ * β := by
  rw [weight_prod (dpPrior_prod (n := 2) hβ (by omega))]
  have hc : Fintype.card (Quotient (⊥ : Setoid (Fin 2))) = 2 := by
    rw [← Fintype.card_of_bijective mk_bot_bijective, Fintype.card_fin]
  have : ∏ q : Quotient (⊥ : Setoid (Fin 2)), pyB ⟨1, 0⟩ (blockRows ⊥ q).card = 1 :=
    Finset.prod_eq_one fun q _ => by
      obtain ⟨a, rfl⟩ := Quotient.mk_surjective q
      rw [blockRows_bot]
      simp [pyB]
  rw [hc, this]
  simp [pyD, pyA]

theorem partPost_two {β : ℝ} (hβ : 0 < β) (like : Θ → ℕ → ℝ) (ν : Measure Θ)
    (Φ : Setoid (Fin 2) → (Fin 2 → Θ) → ℝ≥0∞) :
    partPost (weight (dpPrior β)) like ν Φ = ENNReal.ofReal (1 + β)⁻¹ *
      ((∫⁻ θ : Quotient (⊤ : Setoid (Fin 2)) → Θ,
        likOn like Finset.univ (fun i => θ (Quotient.mk ⊤ i)) * Φ ⊤ (fun i => θ (Quotient.mk ⊤ i))
          ∂Measure.pi fun _ => ν) +
      ENNReal.ofReal β * ∫⁻ θ : Quotient (⊥ : Setoid (Fin 2)) → Θ,
        likOn like Finset.univ (fun i => θ (Quotient.mk ⊥ i)) * Φ ⊥ (fun i => θ (Quotient.mk ⊥ i))
          ∂Measure.pi fun _ => ν) := by
  have h1 : (0 : ℝ) ≤ (1 + β)⁻¹ := by positivity
  rw [partPost, sum_two, weight_top hβ, weight_bot hβ, ENNReal.ofReal_mul h1]
  ring

/-- Posterior means of a density for two rows: masses `β`, values `g⊤` and `g⊥` for the partitions. -/
theorem jointMean_two {E : Env G H Θ} {like : Θ → ℕ → ℝ} {pred : H → ℕ → ℝ} {ν : H → Measure Θ}
    {V : H → Prop} (C : Conjugate E like pred ν V) {h : H} (hv : V h) (ce cn : ℕ → ℝ) {m : ℝ}
    (hce : ∀ c, 0 ≤ ce c) (hcn : ∀ c, 0 ≤ cn c) (hm : 0 ≤ m) :
    ∃ l l' : ℝ, 0 < l ∧ 0 < l' ∧ ∀ β, 0 < β →
      jointMean (n := 2) (dpPrior β) like (ν h) (mixDens ce cn like (ENNReal.ofReal m)) =
      (l * (ce 2 * Real.exp (pred (E.post h 2 (E.contrib 0 + E.contrib 1)) 2) + cn 1 * m) +
        β * l' * (ce 1 * (Real.exp (pred (E.post h 1 (E.contrib 0)) 2) +
          Real.exp (pred (E.post h 1 (E.contrib 1)) 2)) + cn 2 * m)) / (l + β * l') := by
  have hB := C.clusters hv
  have hp := hB.prior
  obtain ⟨L, hL⟩ : ∃ L : Setoid (Fin 2) → ℝ≥0∞,
    L = fun σ => ∏ q, blockLik like (ν h) (blockRows σ q) := ⟨_, rfl⟩
  have hL0 : ∀ σ, L σ ≠ 0 := fun σ => by
    rw [hL]
    exact Finset.prod_ne_zero_iff.mpr fun q _ => (blockLik_ne hB (blockRows_nonempty σ q)).1
  have hL1 : ∀ σ, L σ ≠ ∞ := fun σ => by
    rw [hL]
    exact ENNReal.prod_ne_top fun q _ => (blockLik_ne hB (blockRows_nonempty σ q)).2
  refine ⟨(L ⊤).toReal, (L ⊥).toReal, ENNReal.toReal_pos (hL0 _) (hL1 _),
    ENNReal.toReal_pos (hL0 _) (hL1 _), fun β hβ => ?_⟩
  have hone : ∀ σ : Setoid (Fin 2), ∫⁻ θ : Quotient σ → Θ,
      likOn like Finset.univ (fun i => θ (Quotient.mk σ i)) * 1 ∂Measure.pi (fun _ => ν h) = L σ := by
    intro σ
    simp only [mul_one]
    rw [lintegral_congr fun θ : Quotient σ → Θ => likOn_blocks like σ θ,
      lintegral_prod_pi (fun _ : Quotient σ => ν h) _ fun q => measurable_blockLik C.meas _, hL]
    rfl
  have htop : (∑ q : Quotient (⊤ : Setoid (Fin 2)), ENNReal.ofReal (ce (blockRows ⊤ q).card) *
      ENNReal.ofReal (Real.exp (pred (E.post h (blockRows ⊤ q).card
        (∑ j ∈ blockRows ⊤ q, E.contrib j)) 2))) +
      ENNReal.ofReal (cn (Fintype.card (Quotient (⊤ : Setoid (Fin 2))))) * ENNReal.ofReal m =
      ENNReal.ofReal (ce 2 * Real.exp (pred (E.post h 2 (E.contrib 0 + E.contrib 1)) 2) +
        cn 1 * m) := by
    have hc : Fintype.card (Quotient (⊤ : Setoid (Fin 2))) = 1 :=
      Fintype.card_eq_one_iff.mpr ⟨Quotient.mk _ 0, fun q =>
        Quotient.inductionOn q fun a => Quotient.sound trivial⟩
    have h2 : ({0, 1} : Finset ℕ).card = 2 := rfl
    simp only [blockRows_top, Finset.sum_const, Finset.card_univ, hc, one_smul, h2,
      Finset.sum_pair (show (0 : ℕ) ≠ 1 by omega)]
    rw [← ENNReal.ofReal_mul (hce _), ← ENNReal.ofReal_mul (hcn _),
      ← ENNReal.ofReal_add (mul_nonneg (hce _) (Real.exp_pos _).le) (mul_nonneg (hcn _) hm)]
    rfl
  have hbot : (∑ q : Quotient (⊥ : Setoid (Fin 2)), ENNReal.ofReal (ce (blockRows ⊥ q).card) *
      ENNReal.ofReal (Real.exp (pred (E.post h (blockRows ⊥ q).card
        (∑ j ∈ blockRows ⊥ q, E.contrib j)) 2))) +
      ENNReal.ofReal (cn (Fintype.card (Quotient (⊥ : Setoid (Fin 2))))) * ENNReal.ofReal m =
      ENNReal.ofReal (ce 1 * (Real.exp (pred (E.post h 1 (E.contrib 0)) 2) +
          Real.exp (pred (E.post h 1 (E.contrib 1)) 2)) + cn 2 * m) := by
    have hc : Fintype.card (Quotient (⊥ : Setoid (Fin 2))) = 2 := by
      rw [← Fintype.card_of_bijective mk_bot_bijective, Fintype.card_fin]
    rw [hc, ← Function.Bijective.sum_comp mk_bot_bijective, Fin.sum_univ_two, blockRows_bot,
      blockRows_bot]
    simp only [Finset.card_singleton, Finset.sum_singleton]
    rw [← ENNReal.ofReal_mul (hce _), ← ENNReal.ofReal_mul (hce _), ← ENNReal.ofReal_mul (hcn _),
      ← ENNReal.ofReal_add (mul_nonneg (hce _) (Real.exp_pos _).le)
        (mul_nonneg (hce _) (Real.exp_pos _).le), ← ENNReal.ofReal_add
        (add_nonneg (mul_nonneg (hce _) (Real.exp_pos _).le)
        (mul_nonneg (hce _) (Real.exp_pos _).le)) (mul_nonneg (hcn _) hm), mul_add]
    rfl
  have hb : (0 : ℝ) < 1 + β := by positivity
  unfold jointMean
  rw [partPost_two hβ, partPost_two hβ, hone, hone, mixDens_lik C hv, mixDens_lik C hv, htop, hbot,
    ← congrFun hL ⊤, ← congrFun hL ⊥, ENNReal.mul_div_mul_left _ _
      (ENNReal.ofReal_pos.mpr (inv_pos.mpr hb)).ne' ENNReal.ofReal_ne_top,
    ENNReal.toReal_div, ENNReal.toReal_add, ENNReal.toReal_add, ENNReal.toReal_mul,
    ENNReal.toReal_mul, ENNReal.toReal_mul, ENNReal.toReal_mul, ENNReal.toReal_ofReal hβ.le, ENNReal.toReal_ofReal,
    ENNReal.toReal_ofReal, mul_assoc]
  · exact add_nonneg (mul_nonneg (hce _) (add_pos (Real.exp_pos _) (Real.exp_pos _)).le)
      (mul_nonneg (hcn _) hm)
  · exact add_nonneg (mul_nonneg (hce _) (Real.exp_pos _).le) (mul_nonneg (hcn _) hm)
  · exact hL1 _
  · exact ENNReal.mul_ne_top ENNReal.ofReal_ne_top (hL1 _)
  · exact ENNReal.mul_ne_top (hL1 _) ENNReal.ofReal_ne_top
  · exact ENNReal.mul_ne_top ENNReal.ofReal_ne_top
      (ENNReal.mul_ne_top (hL1 _) ENNReal.ofReal_ne_top)

end Bayesmix.Chain
