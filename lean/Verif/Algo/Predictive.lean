import Verif.Algo.PostMean

/-!
# Partitions of one more row

The partitions of `n + 1` rows are those of `n` rows with a place for the last one. With weights of
product form this turns the marginal likelihood of `n + 1` rows into a posterior mean for `n` rows.
-/

namespace Bayesmix.Chain
open Bayesmix Cond Gibbs SplitMerge Slice Mixing Hierarchies MeasureTheory ENNReal

variable {n : ℕ}

/-- The block of a row when the last one joins block `o`, or starts a new one for `none`. -/
noncomputable def keyOf (σ : Setoid (Fin n)) (o : Option (Quotient σ)) (i : Fin (n + 1)) :
    Option (Quotient σ) :=
  Fin.lastCases (motive := fun _ => Option (Quotient σ)) o (fun i => some (Quotient.mk σ i)) i

@[simp] theorem keyOf_last (σ : Setoid (Fin n)) (o : Option (Quotient σ)) :
    keyOf σ o (Fin.last n) = o := by
  simp [keyOf]

@[simp] theorem keyOf_castSucc (σ : Setoid (Fin n)) (o : Option (Quotient σ)) (i : Fin n) :
    keyOf σ o i.castSucc = some (Quotient.mk σ i) := by
  simp [keyOf]

/-- The partition of `n + 1` rows. -/
noncomputable def extend (p : Σ σ : Setoid (Fin n), Option (Quotient σ)) : Setoid (Fin (n + 1)) :=
  Setoid.ker (keyOf p.1 p.2)

theorem extend_castSucc (p : Σ σ : Setoid (Fin n), Option (Quotient σ)) (i j : Fin n) :
    extend p i.castSucc j.castSucc ↔ p.1 i j := by
  rw [extend, Setoid.ker_def, keyOf_castSucc, keyOf_castSucc, Option.some.injEq, Quotient.eq]

theorem extend_last (p : Σ σ : Setoid (Fin n), Option (Quotient σ)) (j : Fin n) :
    extend p (Fin.last n) j.castSucc ↔ p.2 = some (Quotient.mk p.1 j) := by
  rw [extend, Setoid.ker_def, keyOf_castSucc, keyOf_last]

theorem extend_bijective : Function.Bijective (extend (n := n)) := by
  classical
  constructor
  · rintro ⟨σ, o⟩ ⟨σ', o'⟩ e
    have h1 : σ = σ' := Setoid.ext fun i j => by
      rw [← extend_castSucc ⟨σ, o⟩, ← extend_castSucc ⟨σ', o'⟩, e]
    subst h1
    congr 1
    have h2 : ∀ q, o = some q ↔ o' = some q := fun q => by
      obtain ⟨j, rfl⟩ := Quotient.exists_rep q
      have a := extend_last ⟨σ, o⟩ j
      have b := extend_last ⟨σ, o'⟩ j
      rw [e] at a
      exact a.symm.trans b
    exact Option.ext fun q => h2 q
  · intro τ
    obtain ⟨σ, hσ⟩ : ∃ σ : Setoid (Fin n), σ = Setoid.comap Fin.castSucc τ := ⟨_, rfl⟩
    have hrel : ∀ i j, σ i j ↔ τ i.castSucc j.castSucc := fun i j => by
      rw [hσ]
      exact Iff.rfl
    obtain ⟨o, ho⟩ : ∃ o : Option (Quotient σ), ∀ j, o = some (Quotient.mk σ j) ↔
        τ (Fin.last n) j.castSucc := by
      by_cases h : ∃ i : Fin n, τ (Fin.last n) i.castSucc
      · obtain ⟨i, hi⟩ := h
        refine ⟨some (Quotient.mk σ i), fun j => ?_⟩
        rw [Option.some.injEq, Quotient.eq, hrel]
        exact ⟨fun h => Setoid.trans' _ hi h, fun h => Setoid.trans' _ (Setoid.symm' _ hi) h⟩
      · refine ⟨none, fun j => ⟨fun e => (by cases e), fun hj => absurd ⟨j, hj⟩ h⟩⟩
    refine ⟨⟨σ, o⟩, Setoid.ext fun a b => ?_⟩
    induction a using Fin.lastCases with
    | last =>
      induction b using Fin.lastCases with
      | last => exact ⟨fun _ => Setoid.refl' _ _, fun _ => Setoid.refl' _ _⟩
      | cast j => rw [extend_last, ho]
    | cast i =>
      induction b using Fin.lastCases with
      | last =>
        rw [Setoid.comm', extend_last, ho, Setoid.comm']
      | cast j => rw [extend_castSucc, hrel]

/-- A product over the blocks of a partition given by a function. -/
theorem prod_ker {N : ℕ} {K M : Type} [CommMonoid M] [DecidableEq K] (k : Fin N → K) (f : Finset ℕ → M) :
    ∏ q : Quotient (Setoid.ker k), f (blockRows (Setoid.ker k) q) =
      ∏ c ∈ Finset.univ.image k, f ((Finset.univ.filter fun j => k j = c).map Fin.valEmbedding) := by
  classical
  obtain ⟨e, he⟩ : ∃ e : Quotient (Setoid.ker k) → K, e = Quotient.lift k fun _ _ h => h := ⟨_, rfl⟩
  have hmk : ∀ j, e (Quotient.mk _ j) = k j := fun j => by rw [he]; rfl
  have hinj : Function.Injective e := by
    rw [he]
    intro p q
    refine Quotient.inductionOn₂ p q fun a b h => Quotient.sound h
  refine Finset.prod_bij (fun q _ => e q) (fun q _ => ?_) (fun p _ q _ h => hinj h) (fun c hc => ?_)
    fun q _ => ?_
  · obtain ⟨j, rfl⟩ := Quotient.exists_rep q
    exact Finset.mem_image.mpr ⟨j, Finset.mem_univ _, (hmk j).symm⟩
  · obtain ⟨j, -, rfl⟩ := Finset.mem_image.mp hc
    exact ⟨Quotient.mk _ j, Finset.mem_univ _, hmk j⟩
  · unfold blockRows
    congr 2
    ext j
    simp only [Finset.mem_filter, Finset.mem_univ, true_and]
    rw [← hmk, hinj.eq_iff]

theorem card_ker {N : ℕ} {K : Type} [DecidableEq K] (k : Fin N → K) :
    Fintype.card (Quotient (Setoid.ker k)) = (Finset.univ.image k).card := by
  classical
  have := prod_ker k (f := fun _ => Multiplicative.ofAdd 1)
  rw [Finset.prod_const, Finset.prod_const] at this
  simpa using congrArg Multiplicative.toAdd this

/-- The blocks when the last row starts a new one. -/
theorem extend_none {M : Type} [CommMonoid M] (σ : Setoid (Fin n)) (f : Finset ℕ → M) :
    ∏ q, f (blockRows (extend ⟨σ, none⟩) q) = f {n} * ∏ q, f (blockRows σ q) ∧
      Fintype.card (Quotient (extend ⟨σ, none⟩)) = Fintype.card (Quotient σ) + 1 := by
  classical
  have himg : Finset.univ.image (keyOf σ none) =
      insert none (Finset.univ.map Function.Embedding.some) := by
    ext o
    simp only [Finset.mem_image, Finset.mem_univ, true_and, Finset.mem_insert, Finset.mem_map,
      Function.Embedding.some_apply]
    constructor
    · rintro ⟨i, rfl⟩
      induction i using Fin.lastCases with
      | last => simp
      | cast i => exact Or.inr ⟨_, (keyOf_castSucc σ none i).symm⟩
    · rintro (rfl | ⟨q, rfl⟩)
      · exact ⟨Fin.last n, by simp⟩
      · obtain ⟨i, rfl⟩ := Quotient.exists_rep q
        exact ⟨i.castSucc, by simp⟩
  constructor
  · unfold extend
    rw [prod_ker, himg, Finset.prod_insert (by simp), Finset.prod_map]
    congr 1
    · congr 1
      ext y
      simp only [Finset.mem_map, Finset.mem_filter, Finset.mem_univ, true_and, Fin.valEmbedding_apply,
        Finset.mem_singleton]
      constructor
      · rintro ⟨i, hi, rfl⟩
        induction i using Fin.lastCases with
        | last => rfl
        | cast i => simp at hi
      · rintro rfl
        exact ⟨Fin.last y, by simp, rfl⟩
    · refine Finset.prod_congr rfl fun q _ => ?_
      congr 1
      ext y
      simp only [Finset.mem_map, Finset.mem_filter, Finset.mem_univ, true_and, Fin.valEmbedding_apply,
        blockRows, Function.Embedding.some_apply]
      constructor
      · rintro ⟨i, hi, rfl⟩
        induction i using Fin.lastCases with
        | last => simp at hi
        | cast i =>
          rw [keyOf_castSucc, Option.some.injEq] at hi
          exact ⟨i, hi, rfl⟩
      · rintro ⟨i, hi, rfl⟩
        exact ⟨i.castSucc, by simp [hi], rfl⟩
  · unfold extend
    rw [card_ker, himg, Finset.card_insert_of_notMem (by simp), Finset.card_map, Finset.card_univ]

/-- The blocks when the last row joins one. -/
theorem extend_some {M : Type} [CommMonoid M] (σ : Setoid (Fin n)) (p : Quotient σ) (f : Finset ℕ → M)
    [DecidableEq (Quotient σ)] :
    ∏ q, f (blockRows (extend ⟨σ, some p⟩) q) =
        ∏ q, f (if q = p then insert n (blockRows σ q) else blockRows σ q) ∧
      Fintype.card (Quotient (extend ⟨σ, some p⟩)) = Fintype.card (Quotient σ) := by
  classical
  have himg : Finset.univ.image (keyOf σ (some p)) = Finset.univ.map Function.Embedding.some := by
    ext o
    simp only [Finset.mem_image, Finset.mem_univ, true_and, Finset.mem_map,
      Function.Embedding.some_apply]
    constructor
    · rintro ⟨i, rfl⟩
      induction i using Fin.lastCases with
      | last => simp
      | cast i => exact ⟨_, (keyOf_castSucc σ (some p) i).symm⟩
    · rintro ⟨q, rfl⟩
      obtain ⟨i, rfl⟩ := Quotient.exists_rep q
      exact ⟨i.castSucc, by simp⟩
  constructor
  · unfold extend
    rw [prod_ker, himg, Finset.prod_map]
    refine Finset.prod_congr rfl fun q _ => ?_
    congr 1
    ext y
    have hb : y ∈ blockRows σ q ↔ ∃ i : Fin n, Quotient.mk σ i = q ∧ i.val = y := by
      simp only [blockRows, Finset.mem_map, Finset.mem_filter, Finset.mem_univ, true_and,
        Fin.valEmbedding_apply]
    simp only [Finset.mem_map, Finset.mem_filter, Finset.mem_univ, true_and, Fin.valEmbedding_apply,
      Function.Embedding.some_apply]
    constructor
    · rintro ⟨i, hi, rfl⟩
      induction i using Fin.lastCases with
      | last =>
        rw [keyOf_last, Option.some.injEq] at hi
        rw [if_pos hi.symm]
        simp
      | cast i =>
        rw [keyOf_castSucc, Option.some.injEq] at hi
        have : i.castSucc.val ∈ blockRows σ q := hb.mpr ⟨i, hi, rfl⟩
        split
        · exact Finset.mem_insert_of_mem this
        · exact this
    · intro hy
      have hcast : y ∈ blockRows σ q → ∃ a, keyOf σ (some p) a = some q ∧ a.val = y := fun h => by
        obtain ⟨i, hi, rfl⟩ := hb.mp h
        exact ⟨i.castSucc, by simp [hi], rfl⟩
      split at hy
      · rename_i hq
        rcases Finset.mem_insert.mp hy with rfl | h
        · exact ⟨Fin.last y, by simp [hq], rfl⟩
        · exact hcast h
      · exact hcast hy
  · unfold extend
    rw [card_ker, himg, Finset.card_map, Finset.card_univ]

theorem sum_extend {M : Type} [AddCommMonoid M] (F : Setoid (Fin (n + 1)) → M) :
    ∑ τ, F τ = ∑ σ : Setoid (Fin n), (F (extend ⟨σ, none⟩) + ∑ q, F (extend ⟨σ, some q⟩)) := by
  classical
  rw [← Function.Bijective.sum_comp extend_bijective, Fintype.sum_sigma]
  refine Finset.sum_congr rfl fun σ _ => ?_
  rw [Fintype.sum_option]

/-! ### Weights and integrated likelihoods -/

theorem weight_prod {π : List ℕ → ℝ} {κ : ℝ} {A B : ℕ → ℝ}
    (hπ : ∀ al : List ℕ, al.length = n → π al = κ * prodPost A (sizeW B) al) (σ : Setoid (Fin n)) :
    weight π σ = κ * (A (Fintype.card (Quotient σ)) * ∏ q, B (blockRows σ q).card) := by
  classical
  have hlab : ∀ j : Fin n, (labelsOf σ)[j.val]? = some ((Quotient.mk σ j).out).val := by
    intro j
    rw [labelsOf, List.getElem?_ofFn, dif_pos j.isLt]
  have himg : (labelsOf σ).toFinset = Finset.univ.map
      ⟨fun q : Quotient σ => q.out.val, fun q q' e => by
        rw [← Quotient.out_eq q, ← Quotient.out_eq q', Fin.ext e]⟩ := by
    ext c
    rw [List.mem_toFinset, List.mem_iff_getElem?, Finset.mem_map]
    constructor
    · rintro ⟨j, hj⟩
      have hjn : j < n := by
        have := (List.getElem?_eq_some_iff.mp hj).1
        rwa [labelsOf_length] at this
      have := hlab ⟨j, hjn⟩
      dsimp only at this
      rw [this] at hj
      exact ⟨Quotient.mk σ ⟨j, hjn⟩, Finset.mem_univ _, Option.some.inj hj⟩
    · rintro ⟨q, -, rfl⟩
      exact ⟨q.out.val, by rw [hlab, Quotient.out_eq]; rfl⟩
  rw [weight, hπ _ (labelsOf_length σ), prodPost, himg, Finset.card_map, Finset.card_univ,
    Finset.prod_map]
  congr 2
  refine Finset.prod_congr rfl fun q _ => ?_
  rw [sizeW]
  congr 2
  ext j
  rw [mem_membersIn, labelsOf_length, Finset.mem_range]
  constructor
  · rintro ⟨hj, e⟩
    have e' := hlab ⟨j, hj⟩
    dsimp only at e'
    rw [e'] at e
    have e2 := Fin.ext (Option.some.inj e)
    have : (⟨j, hj⟩ : Fin n).val ∈ blockRows σ q := by
      rw [mem_blockRows, ← Quotient.out_eq q, ← e2, Quotient.out_eq]
    exact this
  · intro hj
    unfold blockRows at hj
    rw [Finset.mem_map] at hj
    obtain ⟨i, hi, rfl⟩ := hj
    have hi' := (Finset.mem_filter.mp hi).2
    refine ⟨i.isLt, ?_⟩
    change (labelsOf σ)[i.val]? = _
    rw [hlab i, hi']
    rfl

variable {Θ : Type} [MeasurableSpace Θ]

/-- Integrated likelihood of rows with one value. -/
noncomputable def blockLik (like : Θ → ℕ → ℝ) (ν : Measure Θ) (D : Finset ℕ) : ℝ≥0∞ :=
  ∫⁻ θ, ENNReal.ofReal (∏ i ∈ D, Real.exp (like θ i)) ∂ν

theorem measurable_blockLik {like : Θ → ℕ → ℝ} (hlike : ∀ i, Measurable fun θ => like θ i)
    (D : Finset ℕ) : Measurable fun θ => ENNReal.ofReal (∏ i ∈ D, Real.exp (like θ i)) :=
  ENNReal.measurable_ofReal.comp (Finset.measurable_prod _ fun i _ =>
    Real.measurable_exp.comp (hlike i))

theorem partPost_one {w : Setoid (Fin n) → ℝ} {like : Θ → ℕ → ℝ} {ν : Measure Θ}
    [IsProbabilityMeasure ν] (hlike : ∀ i, Measurable fun θ => like θ i) :
    partPost w like ν (fun _ _ => 1) =
      ∑ σ, ENNReal.ofReal (w σ) * ∏ q, blockLik like ν (blockRows σ q) := by
  unfold partPost
  refine Finset.sum_congr rfl fun σ _ => ?_
  simp only [mul_one]
  rw [lintegral_congr fun θ : Quotient σ → Θ => likOn_blocks like σ θ,
    lintegral_prod_pi (fun _ : Quotient σ => ν) _ fun q => measurable_blockLik hlike _]
  rfl

theorem likOn_times {like : Θ → ℕ → ℝ} {ν : Measure Θ} [IsProbabilityMeasure ν]
    (hlike : ∀ i, Measurable fun θ => like θ i) (σ : Setoid (Fin n)) (p : Quotient σ)
    [DecidableEq (Quotient σ)] :
    ∫⁻ θ : Quotient σ → Θ, likOn like Finset.univ (fun i => θ (Quotient.mk σ i)) *
        ENNReal.ofReal (Real.exp (like (θ p) n)) ∂Measure.pi (fun _ => ν) =
      ∏ q, blockLik like ν (if q = p then insert n (blockRows σ q) else blockRows σ q) := by
  have hn : ∀ q, n ∉ blockRows σ q := fun q h => by
    unfold blockRows at h
    obtain ⟨i, -, e⟩ := Finset.mem_map.mp h
    have : i.val = n := e
    omega
  have e : ∀ θ : Quotient σ → Θ, likOn like Finset.univ (fun i => θ (Quotient.mk σ i)) *
      ENNReal.ofReal (Real.exp (like (θ p) n)) = ∏ q, ENNReal.ofReal
        (∏ i ∈ (if q = p then insert n (blockRows σ q) else blockRows σ q),
          Real.exp (like (θ q) i)) := by
    intro θ
    rw [likOn_blocks, ← Finset.mul_prod_erase Finset.univ _ (Finset.mem_univ p),
      ← Finset.mul_prod_erase Finset.univ (fun q => ENNReal.ofReal
        (∏ i ∈ (if q = p then insert n (blockRows σ q) else blockRows σ q),
          Real.exp (like (θ q) i))) (Finset.mem_univ p), if_pos rfl, Finset.prod_insert (hn p),
      ENNReal.ofReal_mul (Real.exp_pos _).le]
    have : ∏ q ∈ Finset.univ.erase p, ENNReal.ofReal
        (∏ i ∈ (if q = p then insert n (blockRows σ q) else blockRows σ q),
          Real.exp (like (θ q) i)) = ∏ q ∈ Finset.univ.erase p, ENNReal.ofReal
        (∏ i ∈ blockRows σ q, Real.exp (like (θ q) i)) :=
      Finset.prod_congr rfl fun q hq => by rw [if_neg (Finset.ne_of_mem_erase hq)]
    rw [this]
    ring
  rw [lintegral_congr e, lintegral_prod_pi (fun _ : Quotient σ => ν) (fun q t => ENNReal.ofReal
    (∏ i ∈ (if q = p then insert n (blockRows σ q) else blockRows σ q), Real.exp (like t i)))
    fun q => measurable_blockLik hlike _]
  rfl

/-- The density at row `n` given partition and values of the rows before: blocks have weight `ce`, a
new one `cn`, by size and number of blocks; `m` is the density of a new block. -/
noncomputable def mixDens (ce cn : ℕ → ℝ) (like : Θ → ℕ → ℝ) (m : ℝ≥0∞) (σ : Setoid (Fin n))
    (x : Fin n → Θ) : ℝ≥0∞ :=
  (∑ q : Quotient σ, ENNReal.ofReal (ce (blockRows σ q).card) *
    ENNReal.ofReal (Real.exp (like (x q.out) n))) +
    ENNReal.ofReal (cn (Fintype.card (Quotient σ))) * m

theorem measurable_mixDens {ce cn : ℕ → ℝ} {like : Θ → ℕ → ℝ} {m : ℝ≥0∞}
    (hlike : ∀ i, Measurable fun θ => like θ i) : MeasP (mixDens (n := n) ce cn like m) := by
  intro σ
  unfold mixDens
  refine (Finset.measurable_sum _ fun q _ => ?_).add measurable_const
  exact measurable_const.mul (ENNReal.measurable_ofReal.comp (Real.measurable_exp.comp
    ((hlike n).comp (measurable_pi_apply _))))

/-- The posterior mean of the density is the ratio of marginal likelihoods, if the weights are those of
the next row under the prior. -/
theorem partPost_mixDens {π : List ℕ → ℝ} {κ κ' : ℝ} {A B ce cn : ℕ → ℝ} (hn : 0 < n)
    {like : Θ → ℕ → ℝ} {ν : Measure Θ} [IsProbabilityMeasure ν]
    (hlike : ∀ i, Measurable fun θ => like θ i) {m : ℝ≥0∞}
    (hm : ∫⁻ θ, ENNReal.ofReal (Real.exp (like θ n)) ∂ν = m)
    (hκ : 0 ≤ κ) (hA : ∀ k, 0 ≤ A k) (hB : ∀ c, 0 ≤ B c)
    (hπ : ∀ al : List ℕ, al.length = n → π al = κ * prodPost A (sizeW B) al)
    (hπ' : ∀ al : List ℕ, al.length = n + 1 → π al = κ' * prodPost A (sizeW B) al)
    (hce : ∀ c, 1 ≤ c → κ' * B (c + 1) = κ * B c * ce c)
    (hcn : ∀ k, 1 ≤ k → κ' * (A (k + 1) * B 1) = κ * A k * cn k) :
    partPost (n := n) (weight π) like ν (mixDens ce cn like m) =
      partPost (n := n + 1) (weight π) like ν fun _ _ => 1 := by
  classical
  rw [partPost_one hlike, sum_extend]
  unfold partPost
  refine Finset.sum_congr rfl fun σ _ => ?_
  have hw : 0 ≤ weight π σ := by
    rw [weight_prod hπ]
    exact mul_nonneg hκ (mul_nonneg (hA _) (Finset.prod_nonneg fun q _ => hB _))
  have hnn : ∀ q, n ∉ blockRows σ q := fun q h => by
    unfold blockRows at h
    obtain ⟨i, -, e⟩ := Finset.mem_map.mp h
    have : i.val = n := e
    omega
  have hcard : 1 ≤ Fintype.card (Quotient σ) :=
    Fintype.card_pos_iff.mpr ⟨Quotient.mk σ ⟨0, hn⟩⟩
  have hb1 : ∀ q, 1 ≤ (blockRows σ q).card := fun q => Finset.card_pos.mpr (blockRows_nonempty σ q)
  -- weights
  have w0 : weight π (extend ⟨σ, none⟩) = weight π σ * cn (Fintype.card (Quotient σ)) := by
    rw [weight_prod hπ', weight_prod hπ, (extend_none σ fun D => B D.card).1,
      (extend_none σ fun D => B D.card).2, Finset.card_singleton]
    linear_combination (∏ q, B (blockRows σ q).card) * hcn _ hcard
  have w1 : ∀ p, weight π (extend ⟨σ, some p⟩) = weight π σ * ce (blockRows σ p).card := by
    intro p
    rw [weight_prod hπ', weight_prod hπ, (extend_some σ p fun D => B D.card).1,
      (extend_some σ p fun D => B D.card).2,
      ← Finset.mul_prod_erase Finset.univ _ (Finset.mem_univ p),
      ← Finset.mul_prod_erase Finset.univ (fun q => B (blockRows σ q).card) (Finset.mem_univ p),
      if_pos rfl, Finset.card_insert_of_notMem (hnn p)]
    have : ∏ q ∈ Finset.univ.erase p, B (if q = p then insert n (blockRows σ q)
        else blockRows σ q).card = ∏ q ∈ Finset.univ.erase p, B (blockRows σ q).card :=
      Finset.prod_congr rfl fun q hq => by rw [if_neg (Finset.ne_of_mem_erase hq)]
    rw [this]
    linear_combination (A (Fintype.card (Quotient σ)) *
      ∏ q ∈ Finset.univ.erase p, B (blockRows σ q).card) * hce _ (hb1 p)
  rw [w0, ENNReal.ofReal_mul hw, (extend_none σ (blockLik like ν)).1]
  have e1 : ∀ θ : Quotient σ → Θ, likOn like Finset.univ (fun i => θ (Quotient.mk σ i)) *
      mixDens ce cn like m σ (fun i => θ (Quotient.mk σ i)) =
      ENNReal.ofReal (cn (Fintype.card (Quotient σ))) * m *
        likOn like Finset.univ (fun i => θ (Quotient.mk σ i)) +
      ∑ q : Quotient σ, ENNReal.ofReal (ce (blockRows σ q).card) *
        (likOn like Finset.univ (fun i => θ (Quotient.mk σ i)) *
          ENNReal.ofReal (Real.exp (like (θ q) n))) := by
    intro θ
    unfold mixDens
    simp only [Quotient.out_eq]
    rw [mul_add, Finset.mul_sum, add_comm]
    congr 1
    · ring
    · exact Finset.sum_congr rfl fun q _ => by ring
  have hml : Measurable fun θ : Quotient σ → Θ =>
      likOn like Finset.univ (fun i => θ (Quotient.mk σ i)) :=
    (measurable_likOn hlike Finset.univ).comp (measurable_rows σ)
  have hmq : ∀ q : Quotient σ, Measurable fun θ : Quotient σ → Θ =>
      likOn like Finset.univ (fun i => θ (Quotient.mk σ i)) *
        ENNReal.ofReal (Real.exp (like (θ q) n)) := fun q =>
    hml.mul (ENNReal.measurable_ofReal.comp (Real.measurable_exp.comp
      ((hlike n).comp (measurable_pi_apply _))))
  rw [lintegral_congr e1, lintegral_add_left (hml.const_mul _), lintegral_const_mul _ hml,
    lintegral_finsetSum _ fun q _ => (hmq q).const_mul _, mul_add, Finset.mul_sum]
  congr 1
  · rw [lintegral_congr fun θ : Quotient σ → Θ => likOn_blocks like σ θ,
      lintegral_prod_pi (fun _ : Quotient σ => ν) _ fun q => measurable_blockLik hlike _]
    have : blockLik like ν {n} = m := by
      unfold blockLik
      simp only [Finset.prod_singleton]
      exact hm
    rw [this]
    unfold blockLik
    ring
  · refine Finset.sum_congr rfl fun p _ => ?_
    rw [lintegral_const_mul _ (hmq p), likOn_times hlike, w1, ENNReal.ofReal_mul hw,
      (extend_some σ p (blockLik like ν)).1, mul_assoc]

end Bayesmix.Chain
