import Verif.Mixing.Series
import Verif.Mixing.Mala

/-!
# Properties C25–C33, C63–C67: mixings
-/

namespace Bayesmix
open Bayesmix Bayesmix.Mixing

/-! ## C25 Dirichlet process masses -/

/-- C25: for every state met by a sampler (or read from a message with a
    positive total mass) and every list of cluster sizes with total `n`, the
    normalised masses are non-negative and sum to one, and the proportional
    masses are the normalised ones times `n + total mass`. -/
theorem c25_dirichlet_masses {prior : DPPrior} {s : DPState}
    (hs : DPRun prior s ∨ ∃ m, 0 < m ∧ s = dpSetState m)
    (cards : List ℕ) (n : ℕ) (hn : cards.sum = n) :
    (cards.map (fun c => dpMassExisting s n false c)).sum + dpMassNew s n false = 1 ∧
    (∀ c, 0 ≤ dpMassExisting s n false c) ∧ 0 ≤ dpMassNew s n false ∧
    (∀ c, dpMassExisting s n true c = dpMassExisting s n false c * (n + s.totalmass)) ∧
    dpMassNew s n true = dpMassNew s n false * (n + s.totalmass) ∧
    0 < s.totalmass := by
  have hpos : 0 < s.totalmass := by
    rcases hs with h | ⟨m, hm, rfl⟩
    · exact h.pos.1
    · exact hm
  have hden : 0 < (n : ℝ) + s.totalmass := by positivity
  refine ⟨?_, ?_, ?_, ?_, ?_, hpos⟩
  · have e : (cards.map (fun c => dpMassExisting s n false c)) =
        (cards.map (fun c : ℕ => (c : ℝ))).map (fun x => x / (n + s.totalmass)) := by
      rw [List.map_map]
      apply List.map_congr_left
      intro c _
      simp only [dpMassExisting, Function.comp, Bool.false_eq_true, if_false]
      norm_num
    rw [e, sum_map_div]
    have h2 : (cards.map (fun c : ℕ => (c : ℝ))).sum = n := by
      have := sum_card_sub cards 0
      simp only [sub_zero, zero_mul] at this
      rw [this, hn]
    rw [h2]
    simp only [dpMassNew, Bool.false_eq_true, if_false]
    field_simp
  · intro c; simp only [dpMassExisting, Bool.false_eq_true, if_false]; positivity
  · simp only [dpMassNew, Bool.false_eq_true, if_false]; positivity
  · intro c
    simp only [dpMassExisting, Bool.false_eq_true, if_false, if_true]
    field_simp
  · simp only [dpMassNew, Bool.false_eq_true, if_false, if_true]
    field_simp

/-- A state with total mass 2 and five data in clusters of sizes 3 and 2. -/
example : ∃ s, DPRun (.fixed 2) s ∧ ([3, 2] : List ℕ).sum = 5 ∧
    dpMassNew s 5 false = 2 / 7 := by
  refine ⟨⟨2, 0⟩, DPRun.init (by norm_num [dpInit, dpFresh]), rfl, ?_⟩
  norm_num [dpMassNew]

/-! ## C67 the total mass update -/

/-- C67 (partial): for an accepted gamma prior, at least one datum and one
    cluster, and an auxiliary variable `φ` in the unit interval, the update
    never fails and the new total mass is drawn as in Escobar and West (1995,
    eq. 13): from a gamma with shape `a + k` with probability
    `(a+k-1) / (a+k-1 + n (b - log φ))`, else with shape `a + k - 1`, in both
    cases with rate `b - log φ`.  Missing: the auxiliary variable drawn by the
    code is gamma distributed and not confined to the unit interval. -/
theorem c67_total_mass_update_partial {a b : ℝ} {s : DPState} (hs : DPRun (.gamma a b) s)
    {n k : ℕ} (hn : 0 < n) (hk : 0 < k) {phi draw : ℝ → ℝ → ℝ} {p φ : ℝ}
    (hφ : φ = phi (s.totalmass + 1) n) (hphi : 0 < φ ∧ φ ≤ 1) :
    ∃ s' q, dpUpdate s (.gamma a b) n k phi p draw = .ok s' ∧
      q = (a + k - 1) / (a + k - 1 + n * (b - Real.log φ)) ∧ 0 < q ∧ q < 1 ∧
      s'.totalmass = if p ≤ q then draw (a + k) (b - Real.log φ)
        else draw (a + k - 1) (b - Real.log φ) := by
  have hpos := hs.pos.1
  have hab : 0 < a ∧ 0 < b := by
    clear hφ hphi hpos
    induction hs with
    | init h =>
      simp only [dpInit] at h
      split at h
      · cases h
      · split at h
        · cases h
        · rename_i h1 h2; exact ⟨not_le.mp h1, not_le.mp h2⟩
    | update _ _ _ _ ih => exact ih
  have hlog : Real.log φ ≤ 0 := Real.log_nonpos hphi.1.le hphi.2
  have hn' : (0 : ℝ) < n := by exact_mod_cast hn
  have hk' : (1 : ℝ) ≤ k := by exact_mod_cast hk
  have hrate : 0 < b - Real.log φ := by linarith [hab.2]
  have g1 : 0 < a + (k : ℝ) := by linarith [hab.1]
  have g2 : 0 < a + (k : ℝ) - 1 := by linarith [hab.1]
  have hm : 0 < (n : ℝ) * (b - Real.log φ) := by positivity
  have hq : (a + k - 1) / (n * (b - Real.log φ)) / (1 + (a + k - 1) / (n * (b - Real.log φ))) =
      (a + k - 1) / (a + k - 1 + n * (b - Real.log φ)) := by
    have h1 : (n : ℝ) * (b - Real.log φ) ≠ 0 := hm.ne'
    have h2 : (n : ℝ) * (b - Real.log φ) + (a + k - 1) ≠ 0 := by linarith
    rw [div_div, mul_add, mul_one, mul_div_cancel₀ _ h1, add_comm ((n : ℝ) * _)]
  obtain ⟨m, hmdef⟩ : ∃ m : ℝ, m = if p ≤ (a + k - 1) / (a + k - 1 + n * (b - Real.log φ))
      then draw (a + k) (b - Real.log φ) else draw (a + k - 1) (b - Real.log φ) := ⟨_, rfl⟩
  refine ⟨{ s with totalmass := m }, _, ?_, rfl, by positivity,
    by rw [div_lt_one (by linarith)]; linarith, hmdef⟩
  rw [hmdef]
  simp only [dpUpdate, gammaRng, dpUpdateParams]
  rw [if_pos ⟨by linarith, hn'⟩]
  simp only [ok_bind, ← hφ, hq]
  have e1 : (0 < a + (k : ℝ) ∧ 0 < b - Real.log φ) = True := by simp [g1, hrate]
  have e2 : (0 < a + (k : ℝ) - 1 ∧ 0 < b - Real.log φ) = True := by simp [g2, hrate]
  simp only [e1, e2, if_true]
  by_cases hp : p ≤ (a + k - 1) / (a + k - 1 + n * (b - Real.log φ))
  · simp only [hp, if_true, ok_bind]
  · simp only [hp, if_false, ok_bind]

/-- C67 violated: for every accepted gamma prior there are draws of the
    auxiliary gamma variable (all large enough values) for which the update
    throws, whatever the data. -/
theorem c67_total_mass_update_violated {a b : ℝ} {s : DPState} (n k : ℕ) (p φ : ℝ)
    (phi draw : ℝ → ℝ → ℝ) (hφ : φ = phi (s.totalmass + 1) n) (hphi : Real.exp b ≤ φ) :
    dpUpdate s (.gamma a b) n k phi p draw = .error .throw := by
  have hlog : b ≤ Real.log φ := by
    rw [Real.le_log_iff_exp_le (lt_of_lt_of_le (Real.exp_pos b) hphi)]; exact hphi
  have hbad : ∀ x : ℝ, ¬ (0 < x ∧ 0 < b - Real.log φ) := fun x h => by linarith [h.2]
  unfold dpUpdate
  simp only [gammaRng]
  by_cases h1 : 0 < s.totalmass + 1 ∧ (0 : ℝ) < n
  · rw [if_pos h1]
    simp only [ok_bind, dpUpdateParams, ← hφ]
    simp only [hbad, if_false, error_bind, ite_self]
  · rw [if_neg h1]; rfl

example : ∃ s, DPRun (.gamma 2 1) s ∧ s.totalmass = 2 :=
  ⟨⟨2, 0⟩, DPRun.init (by norm_num [dpInit, dpFresh]), rfl⟩

/-! ## C26 log masses -/

/-- C26 (partial): the log mass is the log of the mass for existing clusters
    of every Dirichlet process, and for new ones after a state has been read
    from a message. -/
theorem c26_dirichlet_log_mass_partial {prior : DPPrior} {s : DPState}
    (hs : DPRun prior s ∨ ∃ m, 0 < m ∧ s = dpSetState m) (n : ℕ) (propto : Bool) :
    (∀ c, IsLogOf (dpLogMassExisting s n propto c) (dpMassExisting s n propto c)) ∧
    ((∃ m, 0 < m ∧ s = dpSetState m) →
      IsLogOf (dpLogMassNew s n propto) (dpMassNew s n propto)) := by
  have hpos : 0 < s.totalmass := by
    rcases hs with h | ⟨m, hm, rfl⟩
    · exact h.pos.1
    · exact hm
  have hden : 0 < (n : ℝ) + s.totalmass := by positivity
  constructor
  · intro c
    have h1 : (1.0 : ℝ) * c = c := by norm_num
    cases propto
    · simp only [dpLogMassExisting, dpMassExisting, Bool.false_eq_true, if_false, h1]
      exact isLogOf_div (isLogOf_logCard c) hden
    · simp only [dpLogMassExisting, dpMassExisting, if_true, h1]
      exact isLogOf_logCard c
  · rintro ⟨m, hm, rfl⟩
    have h1 : IsLogOf (((dpSetState m).logtotmass : ℝ) : EReal) (dpSetState m).totalmass :=
      Or.inl ⟨hm, rfl⟩
    cases propto
    · simp only [dpLogMassNew, dpMassNew, Bool.false_eq_true, if_false]
      exact isLogOf_div h1 hden
    · simp only [dpLogMassNew, dpMassNew, if_true]
      exact h1

/-- C26 violated: in every state met by a sampler the log mass of a new cluster
    is that of a total mass of one, so it is not the log of the mass whenever
    the total mass is not one — in particular for every fixed value other than
    one. -/
theorem c26_dirichlet_log_mass_violated {prior : DPPrior} {s : DPState} (hs : DPRun prior s)
    (n : ℕ) : dpLogMassNew s n true = 0 ∧
    (s.totalmass ≠ 1 → ∀ propto, ¬ IsLogOf (dpLogMassNew s n propto) (dpMassNew s n propto)) := by
  obtain ⟨hpos, hz⟩ := hs.pos
  have h0 : dpLogMassNew s n true = 0 := by simp [dpLogMassNew, hz]
  refine ⟨h0, ?_⟩
  intro hne propto hlog
  have hden : 0 < (n : ℝ) + s.totalmass := by positivity
  have h1 : IsLogOf ((s.logtotmass : ℝ) : EReal) 1 := by rw [hz]; exact isLogOf_one
  cases propto
  · simp only [dpLogMassNew, dpMassNew, Bool.false_eq_true, if_false] at hlog
    have := isLogOf_unique hlog (isLogOf_div h1 hden)
    rw [div_left_inj' hden.ne'] at this
    exact hne this
  · simp only [dpLogMassNew, dpMassNew, if_true] at hlog
    exact hne (isLogOf_unique hlog h1)

example : ∃ s, DPRun (.fixed 2) s ∧ s.totalmass ≠ 1 :=
  ⟨⟨2, 0⟩, DPRun.init (by norm_num [dpInit, dpFresh]), by norm_num⟩

/-- C26 for the Pitman-Yor process: for every accepted prior, any cluster
    size, and new clusters when there is at least one cluster and one datum. -/
theorem c26_pitman_yor_log_mass {a b : ℝ} {s : PYState} (hs : pyInit a b = .ok s)
    (n k : ℕ) (hn : 0 < n) (hk : 0 < k) (propto : Bool) :
    (∀ c, IsLogOf (pyLogMassExisting s n propto c) (pyMassExisting s n propto c)) ∧
    IsLogOf (pyLogMassNew s n k propto) (pyMassNew s n k propto) := by
  obtain ⟨rfl, h1, h2, h3⟩ := pyInit_ok hs
  have hn' : (1 : ℝ) ≤ n := by exact_mod_cast hn
  have hk' : (1 : ℝ) ≤ k := by exact_mod_cast hk
  have hden : 0 < (n : ℝ) + a := by linarith
  constructor
  · intro c
    by_cases hc : c = 0
    · simp only [pyLogMassExisting, pyMassExisting, hc, if_true]
      exact Or.inr ⟨rfl, rfl⟩
    · have hc' : (1 : ℝ) ≤ c := by exact_mod_cast Nat.pos_of_ne_zero hc
      have hl := isLogOf_stdLog (show (0 : ℝ) ≤ c - b by linarith)
      cases propto
      · simp only [pyLogMassExisting, pyMassExisting, if_neg hc, Bool.false_eq_true, if_false]
        exact isLogOf_div hl hden
      · simp only [pyLogMassExisting, pyMassExisting, if_neg hc, if_true]
        exact hl
  · have hl := isLogOf_stdLog (show (0 : ℝ) ≤ a + b * k by nlinarith)
    cases propto
    · simp only [pyLogMassNew, pyMassNew, Bool.false_eq_true, if_false]
      exact isLogOf_div hl hden
    · simp only [pyLogMassNew, pyMassNew, if_true]
      exact hl

example : ∃ s, pyInit 1 (1 / 2) = .ok s := ⟨⟨1, 1 / 2⟩, by norm_num [pyInit]⟩

/-- `coef` is what the coefficient loop of the code returns for a finite
    mixture with parameters `γ`, `lam` whose scaling constant is `C`. -/
def IsCoef (γ lam C : ℝ) (coef : ℕ → ℕ → ℝ) : Prop :=
  ∀ t n, 1 ≤ t → 1 ≤ n → ∃ fuel, computeV (vTerm γ lam C t n) fuel = some (coef t n)

/-- For every positive parameters the coefficient loop ends: there is such a
    table. -/
theorem c28_coefficients_exist {γ lam : ℝ} (hγ : 0 < γ) (hl : 0 < lam) (C : ℝ) :
    ∃ coef, IsCoef γ lam C coef ∧
      ∀ t n, 1 ≤ t → 1 ≤ n → 0 < coef t n ∧ coef t n ≤ trueV γ lam t n * Real.exp (-C) := by
  classical
  have h : ∀ t n, ∃ v, 1 ≤ t → 1 ≤ n →
      ∃ fuel, computeV (vTerm γ lam C t n) fuel = some v := by
    intro t n
    by_cases ht : 1 ≤ t
    · by_cases hn : 1 ≤ n
      · obtain ⟨f, v, h⟩ := computeV_ends hγ hl C ht hn
        exact ⟨v, fun _ _ => ⟨f, h⟩⟩
      · exact ⟨0, fun _ h => absurd h hn⟩
    · exact ⟨0, fun h => absurd h ht⟩
  choose coef hcoef using h
  refine ⟨coef, hcoef, ?_⟩
  intro t n ht hn
  obtain ⟨f, hf⟩ := hcoef t n ht hn
  exact computeV_spec hγ hl C ht hn hf

theorem IsCoef.pos {γ lam C : ℝ} (hγ : 0 < γ) (hl : 0 < lam) {coef : ℕ → ℕ → ℝ}
    (h : IsCoef γ lam C coef) {t n : ℕ} (ht : 1 ≤ t) (hn : 1 ≤ n) : 0 < coef t n := by
  obtain ⟨f, hf⟩ := h t n ht hn
  exact (computeV_spec hγ hl C ht hn hf).1

/-- C26 for the mixture of finite mixtures: every state reached by queries
    about `n` data, `1 ≤ k < n` clusters. -/
theorem c26_finite_mixture_log_mass {γ lam C : ℝ} (hγ : 0 < γ) (hl : 0 < lam)
    {coef : ℕ → ℕ → ℝ} (hc : IsCoef γ lam C coef) {n : ℕ} {s : MFMState}
    (hs : MFMRun coef γ n s) {k : ℕ} (hk : 1 ≤ k) (hkn : k < n) (propto : Bool) (c : ℕ) :
    (∃ l x s₁ s₂, mfmLogMassExisting coef s n k propto c = .ok (l, s₁) ∧
      mfmMassExisting coef s n k propto c = .ok (x, s₂) ∧ IsLogOf l x) ∧
    (∃ l x s₁ s₂, mfmLogMassNew coef s n k propto = .ok (l, s₁) ∧
      mfmMassNew coef s n k propto = .ok (x, s₂) ∧ IsLogOf l x) := by
  obtain ⟨hg, ht⟩ := hs.inv
  obtain ⟨s₁, s₂, h1, h2, h3, h4⟩ := getV_two ht (show k + 1 ≤ n by omega)
  have hv1 := hc.pos hγ hl hk (show 1 ≤ n + 1 by omega)
  have hv2 := hc.pos hγ hl (show 1 ≤ k + 1 by omega) (show 1 ≤ n + 1 by omega)
  have hg2 : s₂.gamma = γ := h3.trans hg
  have hr : 0 < coef (k + 1) (n + 1) / coef k (n + 1) * γ := by positivity
  have hden : 0 < (n : ℝ) + k * γ + coef (k + 1) (n + 1) / coef k (n + 1) * γ := by positivity
  have hlc := isLogOf_stdLog (show (0 : ℝ) ≤ c + γ by positivity)
  have hln := isLogOf_stdLog hr.le
  constructor
  · unfold mfmLogMassExisting mfmMassExisting
    rw [h1, ok_bind, ok_bind]
    simp only
    rw [h2, ok_bind, ok_bind]
    refine ⟨_, _, _, _, rfl, rfl, ?_⟩
    rw [hg2]
    cases propto
    · exact isLogOf_div hlc hden
    · exact hlc
  · unfold mfmLogMassNew mfmMassNew
    rw [h1, ok_bind, ok_bind]
    simp only
    rw [h2, ok_bind, ok_bind]
    refine ⟨_, _, _, _, rfl, rfl, ?_⟩
    rw [hg2]
    cases propto
    · exact isLogOf_div hln hden
    · exact hln

/-- parameters one, ten data, three clusters -/
example : ∃ coef, IsCoef 1 1 0 coef ∧ MFMRun coef 1 10 ⟨1, none⟩ :=
  ⟨_, (c28_coefficients_exist one_pos one_pos 0).choose_spec.1, MFMRun.fresh⟩

/-! ## C27 Pitman-Yor masses -/

/-- C27: for every accepted strength and discount and every clustering of
    `n ≥ 1` data into non-empty clusters, the masses are non-negative and sum to
    one; the proportional ones are `n + strength` times as large. -/
theorem c27_pitman_yor_masses {a b : ℝ} {s : PYState} (hs : pyInit a b = .ok s)
    (cards : List ℕ) (n : ℕ) (hn : cards.sum = n) (hpos : 0 < n)
    (hcards : ∀ c ∈ cards, 0 < c) :
    (cards.map (fun c => pyMassExisting s n false c)).sum +
      pyMassNew s n cards.length false = 1 ∧
    (∀ c, 0 ≤ pyMassExisting s n false c) ∧ 0 ≤ pyMassNew s n cards.length false ∧
    (∀ c, pyMassExisting s n true c = pyMassExisting s n false c * (n + a)) ∧
    pyMassNew s n cards.length true = pyMassNew s n cards.length false * (n + a) := by
  obtain ⟨rfl, h1, h2, h3⟩ := pyInit_ok hs
  have hn' : (1 : ℝ) ≤ n := by exact_mod_cast hpos
  have hden : 0 < (n : ℝ) + a := by linarith
  have hlen : 0 < cards.length := by
    rcases cards with _ | ⟨c, t⟩
    · simp at hn; omega
    · simp
  have hk' : (1 : ℝ) ≤ cards.length := by exact_mod_cast hlen
  refine ⟨?_, ?_, ?_, ?_, ?_⟩
  · have e : (cards.map (fun c => pyMassExisting ⟨a, b⟩ n false c)) =
        (cards.map (fun c : ℕ => (c : ℝ) - b)).map (fun x => x / (n + a)) := by
      rw [List.map_map]
      apply List.map_congr_left
      intro c hc
      simp [pyMassExisting, (hcards c hc).ne']
    rw [e, sum_map_div, sum_card_sub, hn]
    simp only [pyMassNew, Bool.false_eq_true, if_false]
    field_simp
    ring
  · intro c
    by_cases hc : c = 0
    · simp [pyMassExisting, hc]
    · have hc' : (1 : ℝ) ≤ c := by exact_mod_cast Nat.pos_of_ne_zero hc
      simp only [pyMassExisting, if_neg hc, Bool.false_eq_true, if_false]
      exact div_nonneg (by linarith) hden.le
  · simp only [pyMassNew, Bool.false_eq_true, if_false]
    exact div_nonneg (by nlinarith) hden.le
  · intro c
    by_cases hc : c = 0
    · simp [pyMassExisting, hc]
    · simp only [pyMassExisting, if_neg hc, Bool.false_eq_true, if_false, if_true]
      field_simp
  · simp only [pyMassNew, Bool.false_eq_true, if_false, if_true]
    field_simp

/-- C27: with discount zero the Pitman-Yor masses are the Dirichlet process
    masses with total mass equal to the strength. -/
theorem c27_zero_discount_is_dirichlet {a : ℝ} {s : PYState} (hs : pyInit a 0 = .ok s)
    (n k : ℕ) (propto : Bool) :
    ∃ s', dpInit dpFresh (.fixed a) = .ok s' ∧
      (∀ c, pyMassExisting s n propto c = dpMassExisting s' n propto c) ∧
      pyMassNew s n k propto = dpMassNew s' n propto := by
  obtain ⟨rfl, h1, _, _⟩ := pyInit_ok hs
  refine ⟨⟨a, 0⟩, ?_, ?_, ?_⟩
  · have : ¬ a ≤ 0 := by simpa using h1
    simp [dpInit, this, dpFresh]
  · intro c
    by_cases hc : c = 0
    · cases propto <;> simp [pyMassExisting, dpMassExisting, hc]
    · cases propto <;> simp only [pyMassExisting, dpMassExisting, if_neg hc, sub_zero,
        Bool.false_eq_true, if_false, if_true] <;> norm_num
  · cases propto <;> simp [pyMassNew, dpMassNew]

example : ∃ s, pyInit (-1 / 4) (1 / 2) = .ok s ∧ ([3, 2] : List ℕ).sum = 5 :=
  ⟨⟨-1 / 4, 1 / 2⟩, by norm_num [pyInit], rfl⟩
example : ∃ s, pyInit 2 0 = .ok s := ⟨⟨2, 0⟩, by norm_num [pyInit]⟩

/-! ## C28 finite mixture masses -/

/-- C28 (partial): with positive parameters, in every state reached by queries
    about `n` data in fewer than `n` clusters, all masses are computed, they
    are positive and sum to one.  Missing: as many clusters as data. -/
theorem c28_finite_mixture_masses_partial {γ lam C : ℝ} (hγ : 0 < γ) (hl : 0 < lam)
    {coef : ℕ → ℕ → ℝ} (hc : IsCoef γ lam C coef) {n : ℕ} {s : MFMState}
    (hs : MFMRun coef γ n s) (cards : List ℕ) (hn : cards.sum = n) (hne : cards ≠ [])
    (hk : cards.length < n) :
    ∃ (ex : ℕ → ℝ) (nw : ℝ),
      (∀ c, ∃ s', mfmMassExisting coef s n cards.length false c = .ok (ex c, s') ∧ 0 < ex c) ∧
      (∃ s', mfmMassNew coef s n cards.length false = .ok (nw, s')) ∧ 0 < nw ∧
      (cards.map ex).sum + nw = 1 := by
  obtain ⟨hg, ht⟩ := hs.inv
  have hk1 : 1 ≤ cards.length := List.length_pos_iff.mpr hne
  obtain ⟨s₁, s₂, h1, h2, h3, h4⟩ := getV_two ht (show cards.length + 1 ≤ n by omega)
  have hv1 := hc.pos hγ hl hk1 (show 1 ≤ n + 1 by omega)
  have hv2 := hc.pos hγ hl (show 1 ≤ cards.length + 1 by omega) (show 1 ≤ n + 1 by omega)
  have hg2 : s₂.gamma = γ := h3.trans hg
  have hr : 0 < coef (cards.length + 1) (n + 1) / coef cards.length (n + 1) * γ := by positivity
  set D := (n : ℝ) + cards.length * γ +
    coef (cards.length + 1) (n + 1) / coef cards.length (n + 1) * γ with hD
  have hden : 0 < D := by positivity
  refine ⟨fun c => (c + γ) / D,
    coef (cards.length + 1) (n + 1) / coef cards.length (n + 1) * γ / D, ?_, ?_, ?_, ?_⟩
  · intro c
    refine ⟨s₂, ?_, by positivity⟩
    unfold mfmMassExisting
    rw [h1, ok_bind]
    simp only
    rw [h2, ok_bind]
    simp [hg2, hD]
  · refine ⟨s₂, ?_⟩
    unfold mfmMassNew
    rw [h1, ok_bind]
    simp only
    rw [h2, ok_bind]
    simp [hg2, hD]
  · positivity
  · have e : (cards.map fun c : ℕ => ((c : ℝ) + γ) / D) =
        (cards.map (fun c : ℕ => (c : ℝ) - (-γ))).map (fun x => x / D) := by
      rw [List.map_map]
      apply List.map_congr_left
      intro c _
      simp
    rw [e, sum_map_div, sum_card_sub, hn, ← add_div, div_eq_one_iff_eq hden.ne', hD]
    ring

/-- C28 violated: with as many (or more) clusters as data, e.g. one cluster per
    datum as at the default initialisation, every mass query reads the
    coefficient table out of bounds. -/
theorem c28_finite_mixture_violated {coef : ℕ → ℕ → ℝ} {γ : ℝ} {n : ℕ} {s : MFMState}
    (hs : MFMRun coef γ n s) {k : ℕ} (hk : n ≤ k) (propto : Bool) (c : ℕ) :
    mfmMassExisting coef s n k propto c = .error .ub ∧
    mfmMassNew coef s n k propto = .error .ub ∧
    mfmLogMassExisting coef s n k propto c = .error .ub ∧
    mfmLogMassNew coef s n k propto = .error .ub := by
  obtain ⟨hg, ht⟩ := hs.inv
  have hk' : n < k + 1 := by omega
  refine ⟨?_, ?_, ?_, ?_⟩
  · exact getV_two_ub ht hk' (fun v1 v2 s => .ok ((if propto then (c : ℝ) + s.gamma
      else (c + s.gamma) / (n + k * s.gamma + v2 / v1 * s.gamma)), s))
  · exact getV_two_ub ht hk' (fun v1 v2 s => .ok ((if propto then v2 / v1 * s.gamma
      else v2 / v1 * s.gamma / (n + k * s.gamma + v2 / v1 * s.gamma)), s))
  · exact getV_two_ub ht hk' (fun v1 v2 s => .ok ((if propto then stdLog (c + s.gamma)
      else stdLog (c + s.gamma) - stdLog (n + k * s.gamma + v2 / v1 * s.gamma)), s))
  · exact getV_two_ub ht hk' (fun v1 v2 s => .ok ((if propto then stdLog (v2 / v1 * s.gamma)
      else stdLog (v2 / v1 * s.gamma) - stdLog (n + k * s.gamma + v2 / v1 * s.gamma)), s))

/-- three data in three clusters -/
example : MFMRun (fun _ _ => 1) 1 3 ⟨1, none⟩ ∧ (3 : ℕ) ≤ 3 := ⟨MFMRun.fresh, le_refl 3⟩

/-! ## C64 the coefficient table belongs to one number of data -/

/-- C64 (partial): as long as all queries are about the same number of data,
    the answer does not depend on the earlier queries. -/
theorem c64_masses_independent_of_history_partial {coef : ℕ → ℕ → ℝ} {γ : ℝ} {n : ℕ}
    {s : MFMState} (hs : MFMRun coef γ n s) (k : ℕ) (propto : Bool) (c : ℕ) :
    (mfmMassExisting coef s n k propto c).map (·.1) =
      (mfmMassExisting coef ⟨γ, none⟩ n k propto c).map (·.1) ∧
    (mfmMassNew coef s n k propto).map (·.1) =
      (mfmMassNew coef ⟨γ, none⟩ n k propto).map (·.1) := by
  rcases Nat.lt_or_ge k n with hk | hk
  · obtain ⟨hg, ht⟩ := hs.inv
    obtain ⟨hg', ht'⟩ := (MFMRun.fresh (coef := coef) (γ := γ) (n := n)).inv
    obtain ⟨s₁, s₂, h1, h2, h3, h4⟩ := getV_two ht (show k + 1 ≤ n by omega)
    obtain ⟨r₁, r₂, g1, g2, g3, g4⟩ := getV_two ht' (show k + 1 ≤ n by omega)
    constructor
    · unfold mfmMassExisting
      rw [h1, g1, ok_bind, ok_bind]
      simp only
      rw [h2, g2, ok_bind, ok_bind]
      simp [Except.map, h3, g3, hg]
    · unfold mfmMassNew
      rw [h1, g1, ok_bind, ok_bind]
      simp only
      rw [h2, g2, ok_bind, ok_bind]
      simp [Except.map, h3, g3, hg]
  · obtain ⟨a1, a2, _, _⟩ := c28_finite_mixture_violated hs hk propto c
    obtain ⟨b1, b2, _, _⟩ := c28_finite_mixture_violated
      (MFMRun.fresh (coef := coef) (γ := γ) (n := n)) hk propto c
    rw [a1, a2, b1, b2]; exact ⟨rfl, rfl⟩

/-- C64 violated: after a query about `n` data, a query about another number
    `m` of data is answered with the coefficients for `n`. -/
theorem c64_masses_independent_of_history_violated {coef : ℕ → ℕ → ℝ} {γ : ℝ} {n m k : ℕ}
    (hk : k < n) :
    ∃ x s', mfmMassNew coef ⟨γ, none⟩ n k true = .ok (x, s') ∧
      (mfmMassNew coef s' m k true).map (·.1) =
        .ok (coef (k + 1) (n + 1) / coef k (n + 1) * γ) := by
  have key : ∀ (s : MFMState) (t : ℕ), TabOK coef n s.table → s.table ≠ none → t ≤ n →
      getV coef s t m = getV coef s t n ∨
      (∃ tab, s.table = some tab ∧ tab[t]? = some none) := by
    intro s t ht hne htn
    cases hT : s.table with
    | none => exact absurd hT hne
    | some tab =>
      cases he : tab[t]? with
      | none =>
        have := (ht tab hT).1
        rw [List.getElem?_eq_none_iff] at he
        omega
      | some o =>
        cases o with
        | none => right; exact ⟨tab, rfl, he⟩
        | some v => left; simp [getV, hT, vget, he]
  have hfill : ∀ (s : MFMState) (t : ℕ), TabOK coef n s.table → t ≤ n →
      ∃ tab, getV coef s t n = .ok (coef t (n + 1), { s with table := some tab }) ∧
        tab[t]? = some (some (coef t (n + 1))) ∧ tab.length = n + 1 ∧
        (∀ (u : ℕ) (v : ℝ), (s.table.getD (List.replicate (n + 1) none))[u]? = some (some v) →
          tab[u]? = some (some v)) ∧
        TabOK coef n (some tab) := by
    intro s t ht htn
    obtain ⟨s', h1, h2, h3⟩ := getV_ok ht htn
    have hlen : (s.table.getD (List.replicate (n + 1) none)).length = n + 1 := by
      cases h : s.table with
      | none => simp
      | some tab => simpa using (ht tab h).1
    generalize htab : s.table.getD (List.replicate (n + 1) none) = tab at hlen
    have hlt : t < tab.length := by omega
    have hget : vget tab t = .ok tab[t] := vget_ok (List.getElem?_eq_getElem hlt)
    have h1' := h1
    unfold getV at h1'
    rw [htab] at h1'
    simp only [hget, ok_bind] at h1'
    cases he : tab[t] with
    | some v =>
      rw [he] at h1'
      simp only [Except.ok.injEq, Prod.mk.injEq] at h1'
      refine ⟨tab, ?_, ?_, hlen, fun u v h => h, ?_⟩
      · rw [h1, ← h1'.2]
      · rw [List.getElem?_eq_getElem hlt, he, h1'.1]
      · rw [← h1'.2] at h3; exact h3
    | none =>
      rw [he] at h1'
      simp only [Except.ok.injEq, Prod.mk.injEq, true_and] at h1'
      refine ⟨tab.set t (some (coef t (n + 1))), ?_, ?_, by simpa using hlen, ?_, ?_⟩
      · rw [h1, ← h1']
      · simp [hlt]
      · intro u v hu
        rw [List.getElem?_set]
        split
        · rename_i htu; subst htu
          rw [List.getElem?_eq_getElem hlt, he] at hu
          simp at hu
        · exact hu
      · rw [← h1'] at h3; exact h3
  obtain ⟨tab1, a1, a2, a3, a4, a5⟩ :=
    hfill ⟨γ, none⟩ k (by intro tab h; cases h) (by omega)
  obtain ⟨tab2, b1, b2, b3, b4, b5⟩ := hfill ⟨γ, some tab1⟩ (k + 1) a5 (by omega)
  refine ⟨coef (k + 1) (n + 1) / coef k (n + 1) * γ, ⟨γ, some tab2⟩, ?_, ?_⟩
  · unfold mfmMassNew
    rw [a1, ok_bind]
    simp only
    rw [b1, ok_bind]
    simp
  · have c1 : tab2[k]? = some (some (coef k (n + 1))) := b4 k _ (by simpa using a2)
    unfold mfmMassNew
    simp [getV, vget, c1, b2, Except.map]

/-- concrete coefficients for which the answer is wrong -/
example : (2 : ℕ) < 5 ∧
    ∃ coef : ℕ → ℕ → ℝ, coef 3 6 / coef 2 6 * 1 ≠ coef 3 8 / coef 2 8 * 1 :=
  ⟨by norm_num, fun t n => if t = 3 ∧ n = 6 then 2 else 1, by norm_num⟩

/-! ## C29, C63 exchangeability -/

/-- C29: the probability given to a sequence of allocations by the masses of an
    accepted Pitman-Yor process depends only on the sizes of the clusters. -/
theorem c29_pitman_yor_exchangeable {a b : ℝ} {s : PYState} (hs : pyInit a b = .ok s)
    {labels labels' : List ℕ} (h : (clusterSizes labels).Perm (clusterSizes labels')) :
    schemeProb (fun n _ c => pyMassExisting s n false c) (fun n k => pyMassNew s n k false)
      labels =
    schemeProb (fun n _ c => pyMassExisting s n false c) (fun n k => pyMassNew s n k false)
      labels' := by
  obtain ⟨rfl, h1, h2, h3⟩ := pyInit_ok hs
  exact py_exch _ (by simp only; linarith) h

/-- C29: the same for the masses of a Dirichlet process. -/
theorem c29_dirichlet_exchangeable {prior : DPPrior} {s : DPState} (hs : DPRun prior s)
    {labels labels' : List ℕ} (h : (clusterSizes labels).Perm (clusterSizes labels')) :
    schemeProb (fun n _ c => dpMassExisting s n false c) (fun n _ => dpMassNew s n false)
      labels =
    schemeProb (fun n _ c => dpMassExisting s n false c) (fun n _ => dpMassNew s n false)
      labels' := by
  have hpos := hs.pos.1
  have := py_exch ⟨s.totalmass, 0⟩ (by simp only; linarith) h
  have e1 : (fun n (_ : ℕ) c => pyMassExisting ⟨s.totalmass, 0⟩ n false c) =
      (fun n (_ : ℕ) c => dpMassExisting s n false c) := by
    funext n _ c
    by_cases hc : c = 0
    · simp [pyMassExisting, dpMassExisting, hc]
    · simp only [pyMassExisting, dpMassExisting, if_neg hc, Bool.false_eq_true, if_false]
      norm_num
  have e2 : (fun n k => pyMassNew ⟨s.totalmass, 0⟩ n k false) =
      (fun n (_ : ℕ) => dpMassNew s n false) := by
    funext n k
    simp [pyMassNew, dpMassNew]
  rw [e1, e2] at this
  exact this

/-- sequences with the same sizes in another order and with other labels -/
example : (clusterSizes [0, 1, 0, 0, 1]).Perm (clusterSizes [7, 3, 3, 7, 3]) ∧
    clusterSizes [0, 1, 0, 0, 1] ≠ clusterSizes [7, 3, 3, 7, 3] := by decide

/-- C63 (partial): with the exact coefficients (the full series of Miller and
    Harrison), the masses of a mixture of finite mixtures are computed without
    fault whenever there are fewer clusters than data, and the probability they
    give to a sequence of allocations depends only on the sizes of the
    clusters.  Missing: the code truncates the series. -/
theorem c63_finite_mixture_exchangeable_partial {γ lam : ℝ} (hγ : 0 < γ) (hl : 0 < lam)
    {ex : ℕ → ℕ → ℕ → ℝ} {nw : ℕ → ℕ → ℝ}
    (hex : ∀ n k c, ex n k c = (c + γ) /
      (n + k * γ + trueV γ lam (k + 1) (n + 1) / trueV γ lam k (n + 1) * γ))
    (hnw : ∀ n k, nw n k = trueV γ lam (k + 1) (n + 1) / trueV γ lam k (n + 1) * γ /
      (n + k * γ + trueV γ lam (k + 1) (n + 1) / trueV γ lam k (n + 1) * γ)) :
    (∀ (n : ℕ) (s : MFMState), MFMRun (trueV γ lam) γ n s → ∀ k, k < n →
      (∀ c, (mfmMassExisting (trueV γ lam) s n k false c).map (·.1) = .ok (ex n k c)) ∧
      (mfmMassNew (trueV γ lam) s n k false).map (·.1) = .ok (nw n k)) ∧
    (∀ labels labels' : List ℕ, (clusterSizes labels).Perm (clusterSizes labels') →
      schemeProb ex nw labels = schemeProb ex nw labels') := by
  constructor
  · intro n s hs k hk
    obtain ⟨hg, ht⟩ := hs.inv
    obtain ⟨s₁, s₂, h1, h2, h3, h4⟩ := getV_two ht (show k + 1 ≤ n by omega)
    constructor
    · intro c
      unfold mfmMassExisting
      rw [h1, ok_bind]
      simp only
      rw [h2, ok_bind]
      simp [Except.map, h3, hg, hex]
    · unfold mfmMassNew
      rw [h1, ok_bind]
      simp only
      rw [h2, ok_bind]
      simp [Except.map, h3, hg, hnw]
  · intro labels labels' h
    have e1 : ex = mfmEx γ (trueV γ lam) := by funext n k c; exact hex n k c
    have e2 : nw = mfmNw γ (trueV γ lam) := by funext n k; exact hnw n k
    rw [e1, e2]
    exact mfm_exch hγ (trueV_pos hγ hl) (trueV_rec hγ hl) h

/-- C63: parameters one and two; the same sizes of clusters in another order. -/
example : schemeProb (fun n k c => (c + 1) /
      (n + k * 1 + trueV 1 2 (k + 1) (n + 1) / trueV 1 2 k (n + 1) * 1))
    (fun n k => trueV 1 2 (k + 1) (n + 1) / trueV 1 2 k (n + 1) * 1 /
      (n + k * 1 + trueV 1 2 (k + 1) (n + 1) / trueV 1 2 k (n + 1) * 1)) [0, 0, 1] =
    schemeProb (fun n k c => (c + 1) /
      (n + k * 1 + trueV 1 2 (k + 1) (n + 1) / trueV 1 2 k (n + 1) * 1))
    (fun n k => trueV 1 2 (k + 1) (n + 1) / trueV 1 2 k (n + 1) * 1 /
      (n + k * 1 + trueV 1 2 (k + 1) (n + 1) / trueV 1 2 k (n + 1) * 1)) [0, 1, 1] :=
  (c63_finite_mixture_exchangeable_partial one_pos two_pos (fun _ _ _ => rfl) (fun _ _ => rfl)).2 _ _
    (by decide)

/-! ## C30 truncated stick-breaking weights -/

/-- C30: in every state reached through the public operations whose sticks lie
    in the unit interval, weight `h` is stick `h` times the complements of the
    earlier sticks, the weights are non-negative, sum to one minus the product
    of the complements, and the log weights are their logarithms. -/
theorem c30_truncated_weights {prior : SBPrior} {inf : Bool} {s : SBState}
    (hs : SBRun prior inf s) (hv : ∀ v ∈ s.sticks, 0 ≤ v ∧ v ≤ 1) :
    (sbWeights s).length = s.num ∧ s.sticks.length = s.num ∧
    (∀ h (hh : h < s.sticks.length), (sbWeights s)[h]? =
      some (s.sticks[h] * ((s.sticks.take h).map (fun v => 1 - v)).prod)) ∧
    (∀ w ∈ sbWeights s, 0 ≤ w) ∧
    (sbWeights s).sum = 1 - (s.sticks.map (fun v => 1 - v)).prod := by
  have hinv := hs.inv
  have hw := hinv.weights hv
  rw [hw]
  refine ⟨by rw [stickWeights_length, hinv.1], hinv.1.symm, ?_, stickWeights_nonneg hv,
    stickWeights_sum _⟩
  intro h hh
  exact stickWeights_getElem? _ _ hh

/-- C30: after an update of a finite mixture with drawn sticks in the unit
    interval, the last stick is one and the weights sum to one. -/
theorem c30_update_finite_sums_to_one {prior : SBPrior} {s s' : SBState}
    (hs : SBRun prior false s) {cards : List ℕ} {draws : ℕ → ℝ → ℝ → ℝ}
    (hd : ∀ i a b, 0 ≤ draws i a b ∧ draws i a b ≤ 1)
    (h : sbUpdate s prior false cards draws = .ok s') :
    s'.sticks.getLast? = some 1 ∧ (∀ w ∈ sbWeights s', 0 ≤ w) ∧ (sbWeights s').sum = 1 := by
  obtain ⟨hinv, shapes, new, h1, h2, h3, h4, h5, h6⟩ := sbUpdate_inv hs.inv h
  have hlen : new.length = s.num := by simpa using mapM_ok_length h2
  have hne := h5 rfl
  simp only [Bool.false_eq_true, if_false] at h3
  have hnew : ∀ v ∈ new, 0 ≤ v ∧ v ≤ 1 := by
    intro v hv
    obtain ⟨i, _, hi⟩ := mapM_ok_mem h2 v hv
    unfold drawStick at hi
    cases e1 : vget shapes i with
    | error e => rw [e1] at hi; cases hi
    | ok ab =>
      rw [e1, ok_bind] at hi
      cases e2 : vget cards i with
      | error e => rw [e2] at hi; cases hi
      | ok ci =>
        rw [e2, ok_bind] at hi
        unfold betaRng at hi
        split at hi
        · cases hi; exact hd i _ _
        · cases hi
  have hsticks : ∀ v ∈ s'.sticks, 0 ≤ v ∧ v ≤ 1 := by
    intro v hv
    rw [h3] at hv
    rcases List.mem_or_eq_of_mem_set hv with h | rfl
    · exact hnew v h
    · exact ⟨zero_le_one, le_refl 1⟩
  have hlast : s'.sticks.getLast? = some 1 := by
    rw [h3, List.getLast?_eq_getElem?, List.length_set, hlen, List.getElem?_set]
    simp [hlen]; omega
  have hw := hinv.weights hsticks
  refine ⟨hlast, ?_, ?_⟩
  · rw [hw]; exact stickWeights_nonneg hsticks
  · rw [hw, stickWeights_sum]
    have hmem : (1 : ℝ) ∈ s'.sticks := List.mem_of_getLast? hlast
    have : leftover s'.sticks = 0 := by
      unfold leftover
      apply List.prod_eq_zero
      rw [List.mem_map]
      exact ⟨1, hmem, by ring⟩
    rw [this, sub_zero]

/-- C30 violated at initialisation: for every accepted Dirichlet-process prior
    and every number of components the initial weights sum to less than one. -/
theorem c30_initial_weights_violated {m : ℝ} (hm : 0 < m) (num : ℕ) :
    ∃ s, sbInit (.dp m) num = .ok s ∧ (sbWeights s).sum = 1 - (m / (1 + m)) ^ num ∧
      (sbWeights s).sum < 1 := by
  have hmap : ∀ l : List ℕ, l.mapM (betaParams (.dp m) num) = .ok (l.map fun _ => (1, m)) := by
    intro l
    induction l with
    | nil => rfl
    | cons a t ih => rw [List.mapM_cons, ih]; rfl
  have hshape : priorShapes (.dp m) num = .ok ((List.range num).map fun _ => (1, m)) := hmap _
  have hcheck : sbCheck (.dp m) num = .ok () := by simp [sbCheck, not_le.mpr hm]
  set sticks := ((List.range num).map fun _ => ((1 : ℝ), m)).map (fun ab => ab.1 / (ab.1 + ab.2))
    with hst
  have hlen : sticks.length = num := by simp [hst]
  obtain ⟨lw, hlw, _⟩ := logweights_ok sticks
  rw [hlen] at hlw
  have hinit : sbInit (.dp m) num = .ok ⟨sticks, lw, num⟩ := by
    unfold sbInit
    rw [hcheck, ok_bind, hshape, ok_bind]
    simp only [← hst, hlw, ok_bind]
  have hrep : sticks = List.replicate num (1 / (1 + m)) := by
    rw [hst]; simp [List.map_const']
  have h1m : 0 < 1 + m := by linarith
  have hbnd : ∀ v ∈ sticks, 0 ≤ v ∧ v ≤ 1 := by
    intro v hv
    rw [hrep] at hv
    rw [List.eq_of_mem_replicate hv]
    exact ⟨by positivity, by rw [div_le_one h1m]; linarith⟩
  have hsum : (sbWeights ⟨sticks, lw, num⟩).sum = 1 - (m / (1 + m)) ^ num := by
    have := (sbInit_inv hinit).1.weights hbnd
    rw [this, stickWeights_sum]
    unfold leftover
    simp only
    rw [hrep, List.map_replicate, List.prod_replicate]
    congr 2
    field_simp
    ring
  refine ⟨_, hinit, hsum, ?_⟩
  rw [hsum]
  have : 0 < (m / (1 + m)) ^ num := by positivity
  linarith

/-- three components, cards 2, 1, 0, uniform draws of one half -/
theorem example_sbUpdate : ∃ s s', SBRun (.dp 1) false s ∧
    sbUpdate s (.dp 1) false [2, 1, 0] (fun _ _ _ => 1 / 2) = .ok s' ∧ s'.sticks = [1/2, 1/2, 1] := by
  obtain ⟨s, hs, _⟩ := c30_initial_weights_violated one_pos 3
  obtain ⟨hinv, shapes, _, hsh, hst, hnum⟩ := sbInit_inv hs
  have hrun : SBRun (.dp 1) false s := SBRun.init hs
  have hshape : priorShapes (.dp 1) 3 = .ok [(1, 1), (1, 1), (1, 1)] := rfl
  have hlen : s.sticks.length = 3 := by rw [← hinv.1, hnum]
  obtain ⟨lw, hlw, _⟩ := logweights_ok [1/2, 1/2, 1]
  refine ⟨s, ⟨[1/2, 1/2, 1], lw, 3⟩, hrun, ?_, rfl⟩
  unfold sbUpdate
  rw [hnum, hshape]
  have hm : (List.range 3).mapM (drawStick [(1, 1), (1, 1), (1, 1)] [2, 1, 0]
      (fun _ _ _ => (1 / 2 : ℝ))) = .ok [1/2, 1/2, 1/2] := by
    have e : List.range 3 = [0, 1, 2] := rfl
    rw [e]
    simp [List.mapM_cons, drawStick, vget, betaRng]
    norm_num
  have hst : storeSticks s false [1/2, 1/2, 1/2] = .ok [1/2, 1/2, 1] := by
    have hd : s.sticks.drop 3 = [] := by rw [List.drop_eq_nil_iff]; omega
    simp [storeSticks, hnum, hlen, hd]
  simp only [ok_bind, hm, hst]
  have : logweightsFromSticks 3 [1/2, 1/2, 1] = .ok lw := hlw
  rw [this]
  simp

/-! ## C71 the distributions of the sticks -/

/-- The Beta shapes of stick `i` that the prior message describes (for a
    Pitman-Yor prior as the code reads it, see C32). -/
def priorShape : SBPrior → ℕ → Option (ℝ × ℝ)
  | .betas l, i => l[i]?
  | .dp m, _ => some (1, m)
  | .py strength disc, i => some (1 - disc, strength + i * disc)
  | .other, _ => none

theorem betaParams_eq {prior : SBPrior} {num i : ℕ} {ab : ℝ × ℝ}
    (h : betaParams prior num i = .ok ab) : priorShape prior i = some ab := by
  cases prior with
  | betas l =>
    simp only [betaParams] at h
    split at h
    · cases h
    · unfold vget at h
      split at h
      · cases h; assumption
      · cases h
  | dp m => cases h; rfl
  | py s d => cases h; rfl
  | other => cases h

theorem sum_drop_count (labels : List ℕ) (num i : ℕ) (hl : ∀ x ∈ labels, x < num) :
    (((List.range num).map fun j => labels.count j).drop i).sum =
      labels.countP (fun x => decide (i ≤ x)) := by
  induction labels with
  | nil => simp [List.map_const', List.drop_replicate]
  | cons x t ih =>
    have hx := hl x (by simp)
    rw [List.countP_cons, ← ih (fun y hy => hl y (by simp [hy]))]
    have hsplit : ((List.range num).map fun j => (x :: t).count j) =
        (List.range num).map fun j => t.count j + if x = j then 1 else 0 := by
      apply List.map_congr_left
      intro j _
      rw [List.count_cons]; simp
    rw [hsplit, ← List.map_drop, ← List.map_drop, List.sum_map_add]
    congr 1
    have hd : (List.range num).drop i = List.range' i (num - i) := by
      rw [List.range_eq_range', List.drop_range']; simp
    rw [hd]
    have : ((List.range' i (num - i)).map fun j => if x = j then 1 else 0).sum =
        (List.range' i (num - i)).count x := by
      rw [List.count_eq_countP, List.countP_eq_length_filter]
      generalize List.range' i (num - i) = l
      induction l with
      | nil => rfl
      | cons y l ih =>
        rw [List.map_cons, List.sum_cons, ih, List.filter_cons]
        by_cases hxy : x = y
        · subst hxy; simp [Nat.add_comm]
        · simp [hxy, Ne.symm hxy]
    rw [this]
    by_cases hix : i ≤ x
    · simp only [hix, decide_true, if_true]
      exact List.count_eq_one_of_mem List.nodup_range' (by rw [List.mem_range'_1]; omega)
    · simp only [hix, decide_false, Bool.false_eq_true, if_false]
      apply List.count_eq_zero_of_not_mem
      rw [List.mem_range'_1]; omega

/-- C71: in an update given the labels of the data, stick `i` (except the last
    one of a finite mixture) is drawn from the Beta distribution whose shapes
    are the prior's plus the number of data in component `i`, and plus the
    number of data in later components. -/
theorem c71_stick_update {prior : SBPrior} {inf : Bool} {s s' : SBState}
    (hs : SBRun prior inf s) {labels cards : List ℕ} {draws : ℕ → ℝ → ℝ → ℝ}
    (hl : ∀ x ∈ labels, x < s.num)
    (hc : cards = (List.range s.num).map fun j => labels.count j)
    (h : sbUpdate s prior inf cards draws = .ok s') (i : ℕ)
    (hi : i < s.num) (hlast : inf = true ∨ i + 1 < s.num) :
    ∃ a b, priorShape prior i = some (a, b) ∧ s'.sticks[i]? =
      some (draws i (a + labels.count i) (b + labels.countP fun x => decide (i < x))) := by
  obtain ⟨hinv, shapes, new, h1, h2, h3, h4, h5, h6⟩ := sbUpdate_inv hs.inv h
  have hst : s'.sticks[i]? = new[i]? := by
    rw [h3]
    rcases hlast with rfl | hl
    · rfl
    · split
      · rfl
      · rw [List.getElem?_set_ne (by omega)]
  obtain ⟨v, hv, hd⟩ := mapM_getElem? h2 i (by simpa using hi)
  obtain ⟨ab, hab, hsh⟩ := mapM_getElem? h1 i (by simpa using hi)
  rw [List.getElem_range] at hd hsh
  have hci : cards[i]? = some (labels.count i) := by rw [hc]; simp [hi]
  rw [hst, hv]
  refine ⟨ab.1, ab.2, betaParams_eq hsh, ?_⟩
  simp only [drawStick, vget_ok hab, vget_ok hci, ok_bind, betaRng] at hd
  rw [hc, sum_drop_count labels s.num (i + 1) hl] at hd
  split at hd
  · cases hd; rfl
  · cases hd

/-- C71: breaking more sticks keeps the old sticks and draws new stick `h`
    from the prior's Beta distribution of that position. -/
theorem c71_new_sticks {prior : SBPrior} {inf : Bool} {s s' : SBState}
    (hs : SBRun prior inf s) {k : ℕ} {draws : ℕ → ℝ → ℝ → ℝ} {r : ℝ}
    (h : keepBreaking s prior k draws = .ok (s', r)) :
    (∀ i < s.num, s'.sticks[i]? = s.sticks[i]?) ∧
    ∀ i < k, ∃ a b, priorShape prior (s.num + i) = some (a, b) ∧
      s'.sticks[s.num + i]? = some (draws i a b) := by
  have hinv := hs.inv
  obtain ⟨hinv', new, h1, h2, h3, h4, h5⟩ := keepBreaking_inv hinv h
  constructor
  · intro i hi
    rw [h2, List.getElem?_append_left (by rw [← hinv.1]; exact hi)]
  · intro i hi
    obtain ⟨v, hv, hd⟩ := mapM_getElem? h1 i (by simpa using hi)
    rw [List.getElem_range] at hd
    unfold breakStick at hd
    cases hb : betaParams prior s.num (s.num + i) with
    | error e => rw [hb] at hd; cases hd
    | ok ab =>
      rw [hb, ok_bind] at hd
      refine ⟨ab.1, ab.2, betaParams_eq hb, ?_⟩
      rw [h2, List.getElem?_append_right (by rw [← hinv.1]; omega), ← hinv.1,
        Nat.add_sub_cancel_left, hv]
      unfold betaRng at hd
      split at hd
      · cases hd; rfl
      · cases hd

/-- Labels 0, 0, 1 in three components: the counts that enter the shapes. -/
example : (List.range 3).map (fun j => [0, 0, 1].count j) = [2, 1, 0] ∧
    [0, 0, 1].countP (fun x => decide (0 < x)) = 1 := by decide

/-! ## C31 breaking more sticks -/

/-- C31: breaking `k` more sticks keeps the weights, appends `k` weights and
    returns their total. -/
theorem c31_keep_breaking {prior : SBPrior} {inf : Bool} {s s' : SBState}
    (hs : SBRun prior inf s) {k : ℕ} {draws : ℕ → ℝ → ℝ → ℝ} {r : ℝ}
    (h : keepBreaking s prior k draws = .ok (s', r)) :
    ∃ app, sbWeights s' = sbWeights s ++ app ∧ app.length = k ∧ r = app.sum ∧
      s'.num = s.num + k := by
  have hinv := hs.inv
  obtain ⟨hinv', new, h1, h2, h3, h4, h5⟩ := keepBreaking_inv hinv h
  have ha := hinv.2
  rw [hinv.1] at ha
  have hb := hinv'.2
  rw [hinv'.1, h2] at hb
  obtain ⟨app, e1, e2⟩ := logweights_prefix _ _ _ _ ha hb
  have hw : sbWeights s' = sbWeights s ++ app.map stdExp := by
    unfold sbWeights; rw [e1, List.map_append]
  refine ⟨app.map stdExp, hw, by simp [e2, h3], ?_, h4⟩
  rw [h5, hw, List.sum_append]; ring

/-- C31: for accepted Dirichlet-process priors breaking more sticks always
    succeeds. -/
theorem c31_keep_breaking_dp_succeeds {m : ℝ} (hm : 0 < m) {inf : Bool} {s : SBState}
    (hs : SBRun (.dp m) inf s) (k : ℕ) (draws : ℕ → ℝ → ℝ → ℝ) :
    ∃ s' r, keepBreaking s (.dp m) k draws = .ok (s', r) := by
  have hall : ∀ a ∈ List.range k, ∃ b, breakStick (.dp m) s.num draws a = .ok b := by
    intro a _
    refine ⟨draws a 1 m, ?_⟩
    simp [breakStick, betaParams, betaRng, hm]
  obtain ⟨new, hnew⟩ := mapM_all_ok hall
  have hlen : new.length = k := by simpa using mapM_ok_length hnew
  have hinv := hs.inv
  have htake : s.sticks.take s.num = s.sticks := List.take_of_length_le hinv.1.ge
  obtain ⟨lw, hlw, _⟩ := logweights_ok (s.sticks ++ new)
  rw [List.length_append, hlen, ← hinv.1] at hlw
  refine ⟨⟨s.sticks ++ new, lw, s.num + k⟩,
    (sbWeights ⟨s.sticks ++ new, lw, s.num + k⟩).sum - (sbWeights s).sum, ?_⟩
  unfold keepBreaking
  simp only [hnew, ok_bind, htake, hlw]

example : ∃ s, SBRun (.dp 1) true s ∧ s.num = 3 := by
  obtain ⟨s, hs, _⟩ := c30_initial_weights_violated one_pos 3
  obtain ⟨_, _, _, _, _, hnum⟩ := sbInit_inv hs
  exact ⟨s, SBRun.init hs, hnum⟩

/-! ## C32 shape parameters -/

/-- C32 (partial): an accepted prior gives strictly positive Beta parameters for
    every component, except possibly the last one of a list of Beta priors and
    the first one of a Pitman-Yor prior whose strength is not positive. -/
theorem c32_shape_parameters_partial {prior : SBPrior} {num : ℕ}
    (h : sbCheck prior num = .ok ()) (ind : ℕ)
    (hb : ∀ l, prior = .betas l → ind + 1 < num)
    (hp : ∀ strength disc, prior = .py strength disc → 0 < strength ∨ 0 < ind) :
    ∃ a b, betaParams prior num ind = .ok (a, b) ∧ 0 < a ∧ 0 < b := by
  cases prior with
  | betas l =>
    have hi := hb l rfl
    simp only [sbCheck] at h
    split at h
    · cases h
    · rename_i hlen
      push Not at hlen
      split at h
      · cases h
      · rename_i hany
        have hlt : ind < l.length := by omega
        refine ⟨l[ind].1, l[ind].2, ?_, ?_⟩
        · simp only [betaParams]
          rw [if_neg (by omega), vget_ok (List.getElem?_eq_getElem hlt)]
        · have hmem : l[ind] ∈ l.take (num - 1) := by
            rw [List.mem_take_iff_getElem]
            exact ⟨ind, by omega, rfl⟩
          simp only [List.any_eq_true, decide_eq_true_eq, not_exists, not_and, not_or, not_le]
            at hany
          exact hany _ hmem
  | dp m =>
    simp only [sbCheck] at h
    split at h
    · cases h
    · rename_i hm; exact ⟨1, m, rfl, one_pos, not_le.mp hm⟩
  | py strength disc =>
    simp only [sbCheck] at h
    split at h
    · cases h
    · split at h
      · cases h
      · rename_i h1 h2
        push Not at h1 h2
        refine ⟨1 - disc, strength + ind * disc, rfl, by linarith, ?_⟩
        rcases hp strength disc rfl with h | h
        · have : (0 : ℝ) ≤ ind * disc := mul_nonneg (Nat.cast_nonneg _) h2.1
          linarith
        · have : (1 : ℝ) ≤ ind := by exact_mod_cast h
          nlinarith
  | other => cases h

/-- C32 violated: an accepted Pitman-Yor prior with negative strength whose
    first component has a negative second parameter — the initial first stick
    is 2 — and an accepted list of Beta priors with a last pair of negative
    numbers. -/
theorem c32_shape_parameters_violated :
    (∃ s, sbInit (.py (-1/4) (1/2)) 3 = .ok s ∧
      betaParams (.py (-1/4) (1/2)) 3 0 = .ok (1/2, -1/4) ∧ s.sticks[0]? = some 2) ∧
    (sbCheck (.betas [(1, 1), (-1, -2)]) 2 = .ok () ∧
      betaParams (.betas [(1, 1), (-1, -2)]) 2 1 = .ok (-1, -2)) := by
  refine ⟨?_, ?_, ?_⟩
  · have hc : sbCheck (.py (-1/4) (1/2)) 3 = .ok () := by norm_num [sbCheck]
    have hp0 : betaParams (.py (-1/4) (1/2)) 3 0 = .ok (1/2, -1/4) := by norm_num [betaParams]
    have hp1 : betaParams (.py (-1/4) (1/2)) 3 1 = .ok (1/2, 1/4) := by norm_num [betaParams]
    have hp2 : betaParams (.py (-1/4) (1/2)) 3 2 = .ok (1/2, 3/4) := by norm_num [betaParams]
    have hs : priorShapes (.py (-1/4) (1/2)) 3 = .ok [(1/2, -1/4), (1/2, 1/4), (1/2, 3/4)] := by
      have e : List.range 3 = [0, 1, 2] := rfl
      unfold priorShapes
      rw [e]
      simp only [List.mapM_cons, List.mapM_nil, hp0, hp1, hp2, ok_bind, pure_eq_ok]
    obtain ⟨lw, hlw, _⟩ := logweights_ok
      ([(1/2, -1/4), (1/2, 1/4), (1/2, 3/4)].map fun ab : ℝ × ℝ => ab.1 / (ab.1 + ab.2))
    refine ⟨⟨[(1/2, -1/4), (1/2, 1/4), (1/2, 3/4)].map fun ab : ℝ × ℝ => ab.1 / (ab.1 + ab.2),
      lw, 3⟩, ?_, hp0, ?_⟩
    · unfold sbInit
      rw [hc, ok_bind, hs, ok_bind]
      simp only [List.length_map, List.length_cons, List.length_nil] at hlw
      simp only
      rw [hlw]
      rfl
    · norm_num
  · norm_num [sbCheck]
  · simp [betaParams, vget]

example : sbCheck (.betas [(1, 1), (2, 3), (1, 1)]) 3 = .ok () := by norm_num [sbCheck]
example : sbCheck (.py 1 (1/2)) 3 = .ok () := by norm_num [sbCheck]

/-! ## C33 logit stick-breaking weights -/

/-- C33 (partial): for every covariate and coefficients the weights are
    positive, one per component, and at most one in total.  Missing: the total
    is not one. -/
theorem c33_logit_weights_partial {d num : ℕ} (hn : 0 < num) {coefs : List (Fin d → ℝ)}
    (hc : coefs.length = num - 1) (x : Fin d → ℝ) :
    ∃ w, logitWeights num coefs x = .ok w ∧ w.length = num ∧ (∀ y ∈ w, 0 < y) ∧ w.sum ≤ 1 := by
  rw [logit_weights_eq hn hc.ge]
  refine ⟨_, rfl, ?_, ?_, ?_⟩
  · rw [stickWeights_length]; simp; omega
  · set l := ((coefs.take (num - 1)).map fun c => sigmoid (x ⬝ᵥ c)) ++ [sigmoid 1] with hl
    have hpos : ∀ v ∈ l, 0 < v ∧ v < 1 := by
      intro v hv
      rw [hl, List.mem_append, List.mem_map, List.mem_singleton] at hv
      rcases hv with ⟨c, _, rfl⟩ | rfl <;> exact ⟨sigmoid_pos _, sigmoid_lt_one _⟩
    intro y hy
    obtain ⟨i, hi, rfl⟩ := List.mem_iff_getElem.mp hy
    have hi' : i < l.length := by rwa [stickWeights_length] at hi
    have e := stickWeights_getElem? l i hi'
    rw [List.getElem?_eq_getElem hi] at e
    simp only [Option.some.injEq] at e
    rw [e]
    exact mul_pos (hpos _ (List.getElem_mem hi')).1
      (leftover_pos fun v hv => (hpos v (List.mem_of_mem_take hv)).2)
  · rw [stickWeights_sum]
    have : 0 ≤ leftover (((coefs.take (num - 1)).map fun c => sigmoid (x ⬝ᵥ c)) ++
        [sigmoid 1]) := by
      apply leftover_nonneg
      intro v hv
      rw [List.mem_append, List.mem_map, List.mem_singleton] at hv
      rcases hv with ⟨c, _, rfl⟩ | rfl <;> exact (sigmoid_lt_one _).le
    linarith

/-- C33 violated: the weights never sum to one. -/
theorem c33_logit_weights_violated {d num : ℕ} (hn : 0 < num) {coefs : List (Fin d → ℝ)}
    (hc : coefs.length = num - 1) (x : Fin d → ℝ) :
    ∃ w, logitWeights num coefs x = .ok w ∧ w.sum < 1 := by
  rw [logit_weights_eq hn hc.ge]
  refine ⟨_, rfl, ?_⟩
  rw [stickWeights_sum]
  have : 0 < leftover (((coefs.take (num - 1)).map fun c => sigmoid (x ⬝ᵥ c)) ++
      [sigmoid 1]) := by
    apply leftover_pos
    intro v hv
    rw [List.mem_append, List.mem_map, List.mem_singleton] at hv
    rcases hv with ⟨c, _, rfl⟩ | rfl <;> exact sigmoid_lt_one _
  linarith

example : ([fun _ => 2, fun _ => -1] : List (Fin 1 → ℝ)).length = 3 - 1 := rfl

/-! ## C65, C66 the update of the logit stick-breaking mixing -/

/-- C66: the function `full_cond_lpdf` used for the coefficients of component
    `h` differs between two values by as much as the log posterior of all
    coefficients given the allocations. -/
theorem c66_full_conditional {d num : ℕ} (mean : Fin d → ℝ)
    (prec : Matrix (Fin d) (Fin d) ℝ) (coefs : List (Fin d → ℝ)) (hc : coefs.length = num - 1)
    (h : ℕ) (hh : h < num - 1) (data : List (LogitDatum d)) (hx : ∀ xc ∈ data, xc.2 < num)
    (a b : Fin d → ℝ) :
    fullCond mean prec data h a - fullCond mean prec data h b =
      logitPosterior mean prec num (coefs.set h a) data -
      logitPosterior mean prec num (coefs.set h b) data :=
  fullCond_posterior mean prec (by omega) coefs hc h hh data hx a b

/-- C66: for a symmetric precision, the vector returned by
    `grad_full_cond_lpdf` is the gradient of `full_cond_lpdf`: it gives the
    derivative in every direction. -/
theorem c66_gradient {d : ℕ} (mean : Fin d → ℝ) (prec : Matrix (Fin d) (Fin d) ℝ)
    (hP : prec.transpose = prec) (data : List (LogitDatum d)) (clust : ℕ) (α v : Fin d → ℝ) :
    HasDerivAt (fun τ : ℝ => fullCond mean prec data clust (α + τ • v))
      (gradFullCond mean prec data clust α ⬝ᵥ v) 0 :=
  hasDerivAt_fullCond mean prec hP data clust α v

/-- C66: the mean of the proposal is the current value moved up the gradient by the step size: in every
    direction the displacement, divided by the step, is the derivative of the log full conditional. -/
theorem c66_proposal {d : ℕ} (mean : Fin d → ℝ) (prec : Matrix (Fin d) (Fin d) ℝ)
    (hP : prec.transpose = prec) (data : List (LogitDatum d)) (clust : ℕ) (α v : Fin d → ℝ) {step : ℝ}
    (hs : 0 < step) :
    HasDerivAt (fun τ : ℝ => fullCond mean prec data clust (α + τ • v))
      ((propMean step (gradFullCond mean prec data clust) α - α) ⬝ᵥ v / step) 0 := by
  have h : (propMean step (gradFullCond mean prec data clust) α - α) ⬝ᵥ v / step =
      gradFullCond mean prec data clust α ⬝ᵥ v := by
    unfold propMean
    rw [add_sub_cancel_left, smul_dotProduct, smul_eq_mul, mul_div_cancel_left₀ _ hs.ne']
  rw [h]
  exact c66_gradient mean prec hP data clust α v

example : (1 : Matrix (Fin 2) (Fin 2) ℝ).transpose = 1 ∧
    ([fun _ => 2, fun _ => -1] : List (Fin 2 → ℝ)).length = 3 - 1 ∧
    ∀ xc ∈ ([(fun _ => 1, 2), (fun _ => 3, 0)] : List (LogitDatum 2)), xc.2 < 3 := by
  refine ⟨Matrix.transpose_one, rfl, ?_⟩
  intro xc h
  simp at h
  rcases h with rfl | rfl <;> norm_num

/-- C65 (partial): the log ratio of the acceptance test is the
    Metropolis-Hastings log ratio exactly when the current value is as far from
    the proposal mean of the proposed value as from its own proposal mean.
    Missing: the general case, where the backward proposal density is taken
    around the wrong mean. -/
theorem c65_acceptance_ratio_partial {d : ℕ} {step : ℝ} (hs : 0 < step)
    (f : (Fin d → ℝ) → ℝ) (g : (Fin d → ℝ) → Fin d → ℝ) (c prop : Fin d → ℝ) :
    logAccept step f g c prop =
      f prop - f c + (gaussLog (propMean step g prop) (propVar step) c -
        gaussLog (propMean step g c) (propVar step) prop) ↔
    (c - propMean step g prop) ⬝ᵥ (c - propMean step g prop) =
      (c - propMean step g c) ⬝ᵥ (c - propMean step g c) := by
  have hv : 0 < propVar step := Real.sqrt_pos.mpr (by positivity)
  unfold logAccept gaussLog
  simp only
  generalize (prop - propMean step g c) ⬝ᵥ (prop - propMean step g c) = A
  generalize (c - propMean step g c) ⬝ᵥ (c - propMean step g c) = B
  generalize (c - propMean step g prop) ⬝ᵥ (c - propMean step g prop) = D
  have hne : (0.5 : ℝ) / propVar step ≠ 0 := by positivity
  constructor
  · intro h
    have h2 : (0.5 : ℝ) / propVar step * (D - B) = 0 := by linear_combination h
    rcases mul_eq_zero.mp h2 with h3 | h3
    · exact absurd h3 hne
    · linarith
  · rintro rfl; ring

/-- The condition of the theorem holds for a proposal equal to the current value. -/
example (g : (Fin 1 → ℝ) → Fin 1 → ℝ) (c : Fin 1 → ℝ) :
    (c - propMean 1 g c) ⬝ᵥ (c - propMean 1 g c) =
      (c - propMean 1 g c) ⬝ᵥ (c - propMean 1 g c) := rfl

/-- C65 violated: one coefficient, standard normal prior, no data in the
    component, step one half; the log ratio used for a move from 0 to 1 is not
    the Metropolis-Hastings log ratio. -/
theorem c65_acceptance_ratio_violated :
    let f := fullCond (d := 1) 0 1 [] 0
    let g := gradFullCond (d := 1) 0 1 [] 0
    logAccept (1 / 2) f g (fun _ => 0) (fun _ => 1) ≠
      f (fun _ => 1) - f (fun _ => 0) +
      (gaussLog (propMean (1 / 2) g (fun _ => 1)) (propVar (1 / 2)) (fun _ => 0) -
        gaussLog (propMean (1 / 2) g (fun _ => 0)) (propVar (1 / 2)) (fun _ => 1)) := by
  have hv : propVar (1 / 2) = 1 := by
    unfold propVar; norm_num
  intro f g
  unfold logAccept gaussLog propMean
  simp only [hv]
  have hg : ∀ a : Fin 1 → ℝ, g a = -a := by
    intro a
    show gradFullCond (d := 1) 0 1 [] 0 a = -a
    simp [gradFullCond]
  simp only [hg]
  simp only [dotProduct, Fin.sum_univ_one, Pi.sub_apply, Pi.add_apply, Pi.smul_apply,
    Pi.neg_apply, smul_eq_mul]
  intro h
  norm_num at h

end Bayesmix
