import Verif.Mixing.Serial
import Verif.Utils.Props

/-! # C127, mixings: a saved state can be restored -/

namespace Bayesmix
open Mixing Utils

/-- **C127, Dirichlet process (partial).** The state of a mixing that a sampler has met, restored into any
other object, gives the same masses, and the same log masses of existing clusters; the log mass of
a new cluster of the restored object is the logarithm of the mass. Missing: it is not the value that the
original object gives, see `c127_dirichlet_violated`. -/
theorem c127_dirichlet_partial {prior : DPPrior} {s : DPState} (hs : DPRun prior s) (old : DPState) (n : ℕ)
    (propto : Bool) :
    (∀ c, dpMassExisting (dpSetFromProto old (dpGetProto s)) n propto c = dpMassExisting s n propto c) ∧
    dpMassNew (dpSetFromProto old (dpGetProto s)) n propto = dpMassNew s n propto ∧
    (∀ c, dpLogMassExisting (dpSetFromProto old (dpGetProto s)) n propto c =
      dpLogMassExisting s n propto c) ∧
    IsLogOf (dpLogMassNew (dpSetFromProto old (dpGetProto s)) n propto) (dpMassNew s n propto) := by
  refine ⟨fun c => rfl, rfl, fun c => rfl, ?_⟩
  have h := (c26_dirichlet_log_mass_partial (prior := prior)
    (s := dpSetFromProto old (dpGetProto s)) (Or.inr ⟨s.totalmass, hs.pos.1, rfl⟩) n propto).2
    ⟨s.totalmass, hs.pos.1, rfl⟩
  exact h

example : DPRun (.fixed 2) ⟨2, 0⟩ := DPRun.init (by simp [dpInit, dpFresh])

/-- **C127, failing case.** Unless the total mass is one, a Dirichlet process mixing gives another log mass
of a new cluster after its own state has been saved and restored: `initialize` and `update_state` leave
the stored logarithm alone, `set_state_from_proto` computes it. -/
theorem c127_dirichlet_violated {prior : DPPrior} {s : DPState} (hs : DPRun prior s) (hm : s.totalmass ≠ 1)
    (n : ℕ) (propto : Bool) :
    dpLogMassNew (dpSetFromProto s (dpGetProto s)) n propto ≠ dpLogMassNew s n propto := by
  intro h
  have h1 := (c127_dirichlet_partial hs s n propto).2.2.2
  rw [h] at h1
  exact (c26_dirichlet_log_mass_violated hs n).2 hm propto h1

example : dpLogMassNew (dpSetFromProto ⟨2, 0⟩ (dpGetProto ⟨2, 0⟩)) 5 true ≠ dpLogMassNew ⟨2, 0⟩ 5 true :=
  c127_dirichlet_violated (prior := .fixed 2) (DPRun.init (by simp [dpInit, dpFresh])) (by norm_num) 5 true

/-- **C127, Pitman-Yor process.** The restored object gives the same masses and log masses. -/
theorem c127_pitman_yor (s old : PYState) (n k : ℕ) (propto : Bool) :
    (∀ c, pyMassExisting (pySetFromProto old (pyGetProto s)) n propto c = pyMassExisting s n propto c) ∧
    pyMassNew (pySetFromProto old (pyGetProto s)) n k propto = pyMassNew s n k propto ∧
    (∀ c, pyLogMassExisting (pySetFromProto old (pyGetProto s)) n propto c =
      pyLogMassExisting s n propto c) ∧
    pyLogMassNew (pySetFromProto old (pyGetProto s)) n k propto = pyLogMassNew s n k propto :=
  ⟨fun _ => rfl, rfl, fun _ => rfl, rfl⟩

example : pyMassNew (pySetFromProto ⟨7, 0⟩ (pyGetProto ⟨1, 1/2⟩)) 3 2 true = 2 := by
  rw [(c127_pitman_yor ⟨1, 1/2⟩ ⟨7, 0⟩ 3 2 true).2.1]
  norm_num [pyMassNew]

/-- the first component of a result -/
theorem map_fst_bind_table {α β γ : Type} (x : Except Fault (α × β)) (f : β → γ) :
    (x >>= fun p => (.ok (p.1, f p.2) : Except Fault (α × γ))).map (·.1) = x.map (·.1) := by
  cases x <;> rfl

theorem mfmObjMassNew_fst (V : ℝ → ℝ → ℕ → ℕ → ℝ) (o : MFMObj) (n k : ℕ) (propto : Bool) :
    (mfmObjMassNew V o n k propto).map (·.1) =
      (mfmMassNew (V o.lambda o.gamma) o.core n k propto).map (·.1) := by
  unfold mfmObjMassNew
  cases mfmMassNew (V o.lambda o.gamma) o.core n k propto <;> rfl

theorem mfmObjMassExisting_fst (V : ℝ → ℝ → ℕ → ℕ → ℝ) (o : MFMObj) (n k : ℕ) (propto : Bool) (c : ℕ) :
    (mfmObjMassExisting V o n k propto c).map (·.1) =
      (mfmMassExisting (V o.lambda o.gamma) o.core n k propto c).map (·.1) := by
  unfold mfmObjMassExisting
  cases mfmMassExisting (V o.lambda o.gamma) o.core n k propto c <;> rfl

/-- **C127, finite mixtures (partial).** The state of a mixing that has answered any queries about `n`
data, restored into an object that has answered none, or whose queries were about `n` data and the
same parameters, gives the same masses. Missing: objects that have answered queries with
other parameters, see `c127_finite_mixture_violated`. -/
theorem c127_finite_mixture_partial (V : ℝ → ℝ → ℕ → ℕ → ℝ) (a b : MFMObj) (n : ℕ)
    (ha : MFMRun (V a.lambda a.gamma) a.gamma n a.core)
    (hb : b.table = none ∨ (b.lambda = a.lambda ∧ b.gamma = a.gamma ∧
      MFMRun (V b.lambda b.gamma) b.gamma n b.core)) (k : ℕ) (propto : Bool) :
    (∀ c, (mfmObjMassExisting V (mfmSetFromProto b (mfmGetProto a)) n k propto c).map (·.1) =
      (mfmObjMassExisting V a n k propto c).map (·.1)) ∧
    (mfmObjMassNew V (mfmSetFromProto b (mfmGetProto a)) n k propto).map (·.1) =
      (mfmObjMassNew V a n k propto).map (·.1) := by
  have hr : MFMRun (V a.lambda a.gamma) a.gamma n (mfmSetFromProto b (mfmGetProto a)).core := by
    rcases hb with hb | ⟨h1, h2, h3⟩
    · have e : (mfmSetFromProto b (mfmGetProto a)).core = ⟨a.gamma, none⟩ := by
        simp [mfmSetFromProto, MFMObj.core, mfmGetProto, MixMsg.mfmPair, hb]
      rw [e]; exact MFMRun.fresh
    · have e : (mfmSetFromProto b (mfmGetProto a)).core = b.core := by
        simp [mfmSetFromProto, MFMObj.core, mfmGetProto, MixMsg.mfmPair, h2]
      rw [e, ← h1, ← h2]; exact h3
  have hl : (mfmSetFromProto b (mfmGetProto a)).lambda = a.lambda := rfl
  have hg : (mfmSetFromProto b (mfmGetProto a)).gamma = a.gamma := rfl
  constructor
  · intro c
    rw [mfmObjMassExisting_fst, mfmObjMassExisting_fst, hl, hg,
      (c64_masses_independent_of_history_partial hr k propto c).1,
      (c64_masses_independent_of_history_partial ha k propto c).1]
  · rw [mfmObjMassNew_fst, mfmObjMassNew_fst, hl, hg,
      (c64_masses_independent_of_history_partial hr k propto 0).2,
      (c64_masses_independent_of_history_partial ha k propto 0).2]

example : MFMRun ((fun l _ t _ => l ^ t : ℝ → ℝ → ℕ → ℕ → ℝ) 2 3) 3 5
    (⟨2, 3, none⟩ : MFMObj).core ∧ (⟨7, 8, none⟩ : MFMObj).table = none := ⟨MFMRun.fresh, rfl⟩

/-- **C127, failing case.** An object `b` that has answered a query about `n` data keeps its
coefficients when the state of `a` is restored into it: the mass of a new cluster is computed with the
coefficients of the parameters of `b`. It is wrong as soon as the ratio of the coefficients
depends on the parameters. -/
theorem c127_finite_mixture_violated (V : ℝ → ℝ → ℕ → ℕ → ℝ) (a b : MFMObj) (n k : ℕ) (hk : k < n)
    (ha : MFMRun (V a.lambda a.gamma) a.gamma n a.core) (hb : b.table = none) :
    ∃ x b', mfmObjMassNew V b n k true = .ok (x, b') ∧
      (mfmObjMassNew V (mfmSetFromProto b' (mfmGetProto a)) n k true).map (·.1) =
        .ok (V b.lambda b.gamma (k + 1) (n + 1) / V b.lambda b.gamma k (n + 1) * a.gamma) ∧
      (mfmObjMassNew V a n k true).map (·.1) =
        .ok (V a.lambda a.gamma (k + 1) (n + 1) / V a.lambda a.gamma k (n + 1) * a.gamma) := by
  have hbc : b.core = ⟨b.gamma, none⟩ := by simp [MFMObj.core, hb]
  have hbr : MFMRun (V b.lambda b.gamma) b.gamma n b.core := by rw [hbc]; exact MFMRun.fresh
  obtain ⟨hg, ht⟩ := hbr.inv
  obtain ⟨s₁, s₂, h1, h2, h3, h4⟩ := getV_two ht (show k + 1 ≤ n by omega)
  have hq : mfmMassNew (V b.lambda b.gamma) b.core n k true =
      .ok (V b.lambda b.gamma (k + 1) (n + 1) / V b.lambda b.gamma k (n + 1) * s₂.gamma, s₂) := by
    unfold mfmMassNew
    rw [h1, ok_bind]
    simp only
    rw [h2, ok_bind]
    simp
  -- the entries are in the table now
  have hent : ∃ tab, s₂.table = some tab ∧ tab[k]? = some (some (V b.lambda b.gamma k (n + 1))) ∧
      tab[k + 1]? = some (some (V b.lambda b.gamma (k + 1) (n + 1))) := by
    have step : ∀ (s s' : MFMState) (t : ℕ) (v : ℝ), getV (V b.lambda b.gamma) s t n = .ok (v, s') →
        ∃ tab', s'.table = some tab' ∧ tab'[t]? = some (some v) ∧
          ∀ tab : List (Option ℝ), s.table = some tab → ∀ (u : ℕ) (w : ℝ), tab[u]? = some (some w) → tab'[u]? = some (some w) := by
      intro s s' t v h
      unfold getV at h
      simp only at h
      cases he : vget (s.table.getD (List.replicate (n + 1) none)) t with
      | error e => rw [he] at h; cases h
      | ok e =>
        rw [he, ok_bind] at h
        have hget : (s.table.getD (List.replicate (n + 1) none))[t]? = some e := by
          unfold vget at he
          split at he
          · rename_i hx; cases he; exact hx
          · cases he
        cases e with
        | some w =>
          cases h
          refine ⟨_, rfl, hget, ?_⟩
          intro tab htab u w hw
          simpa [htab] using hw
        | none =>
          cases h
          have hlt : t < (s.table.getD (List.replicate (n + 1) none)).length := by
            by_contra hc
            rw [List.getElem?_eq_none (by omega)] at hget
            cases hget
          refine ⟨_, rfl, by simp [hlt], ?_⟩
          intro tab htab u w hw
          have hut : t ≠ u := by
            rintro rfl
            rw [htab] at hget
            simp only [Option.getD_some] at hget
            rw [hget] at hw
            cases hw
          rw [List.getElem?_set_ne hut]
          simpa [htab] using hw
    obtain ⟨t1, e1, e2, -⟩ := step _ _ _ _ h1
    obtain ⟨t2, f1, f2, f3⟩ := step _ _ _ _ h2
    exact ⟨t2, f1, f3 t1 e1 k _ e2, f2⟩
  refine ⟨_, { b with table := s₂.table }, by unfold mfmObjMassNew; rw [hq]; rfl, ?_, ?_⟩
  · obtain ⟨tab, htab, hk1, hk2⟩ := hent
    rw [mfmObjMassNew_fst]
    have hv : ∀ (coef : ℕ → ℕ → ℝ) (γ : ℝ) (t : ℕ) (v : ℝ), tab[t]? = some (some v) →
        getV coef ⟨γ, some tab⟩ t n = .ok (v, ⟨γ, some tab⟩) := by
      intro coef γ t v h
      unfold getV
      have : vget tab t = .ok (some v) := by unfold vget; rw [h]
      simp [this, ok_bind]
    have e : (mfmSetFromProto { b with table := s₂.table } (mfmGetProto a)).core =
        ⟨a.gamma, some tab⟩ := by
      simp [mfmSetFromProto, MFMObj.core, mfmGetProto, MixMsg.mfmPair, htab]
    rw [e]
    unfold mfmMassNew
    rw [hv _ _ _ _ hk1, ok_bind]
    simp only
    rw [hv _ _ _ _ hk2, ok_bind]
    simp [Except.map]
  · rw [mfmObjMassNew_fst, (c64_masses_independent_of_history_partial ha k true 0).2]
    obtain ⟨-, ht'⟩ := (MFMRun.fresh (coef := V a.lambda a.gamma) (γ := a.gamma) (n := n)).inv
    obtain ⟨r₁, r₂, g1, g2, g3, -⟩ := getV_two ht' (show k + 1 ≤ n by omega)
    unfold mfmMassNew
    rw [g1, ok_bind]
    simp only
    rw [g2, ok_bind]
    simp [Except.map, g3]

example : ∃ x b', mfmObjMassNew (fun l _ t _ => l ^ t) ⟨7, 3, none⟩ 5 2 true = .ok (x, b') ∧
    (mfmObjMassNew (fun l _ t _ => l ^ t) (mfmSetFromProto b' (mfmGetProto ⟨2, 3, none⟩)) 5 2 true).map
      (·.1) = .ok 21 ∧
    (mfmObjMassNew (fun l _ t _ => l ^ t) ⟨2, 3, none⟩ 5 2 true).map (·.1) = .ok 6 := by
  obtain ⟨x, b', h1, h2, h3⟩ := c127_finite_mixture_violated (fun l _ t _ => l ^ t) ⟨2, 3, none⟩
    ⟨7, 3, none⟩ 5 2 (by norm_num) MFMRun.fresh rfl
  refine ⟨x, b', h1, h2.trans ?_, h3.trans ?_⟩ <;> norm_num

/-- **C127, truncated stick-breaking.** The state of any mixing that was reached by initialization,
updates, further breaking of sticks and setting, restored into any object, is the same: sticks, log
weights and number of components. -/
theorem c127_truncated_sb {prior : SBPrior} {inf : Bool} {s : SBState} (hs : SBRun prior inf s)
    (old : SBState) : sbSetFromProto old (sbGetProto s) = .ok s := by
  obtain ⟨h1, h2⟩ := hs.inv
  obtain ⟨sticks, lw, num⟩ := s
  simp only at h1 h2
  subst h1
  unfold sbSetFromProto sbGetProto MixMsg.truncSticks sbSetSticks
  simp only
  rw [c46_vector_roundtrip, ok_bind, h2]
  rfl

example : ∃ s, SBRun (.dp 1) true s ∧ s.num = 3 := by
  obtain ⟨s, hs, _⟩ := c30_initial_weights_violated one_pos 3
  obtain ⟨_, _, _, _, _, hnum⟩ := sbInit_inv hs
  exact ⟨s, SBRun.init hs, hnum⟩

/-- **C127, logit stick-breaking (partial).** The weights of the restored object are the same at every
covariate if it has the same number of components. Missing: the number of components and the precision
are not restored, see `c127_logit_sb_violated`. -/
theorem c127_logit_sb_partial (o old : LogitObj) (hwf : o.coeffs.WF) (hc : o.coeffs.cols = o.num - 1)
    (hr : 0 < o.coeffs.rows ∨ o.num ≤ 1) (hn : old.num = o.num) :
    ∃ o', logitSetFromProto old (logitGetProto o) = .ok o' ∧
      (∀ x, logitObjLogWeights o' x = logitObjLogWeights o x) ∧ o'.precision = old.precision := by
  by_cases h2 : 2 ≤ o.num
  · have hrt := c46_matrix_roundtrip_partial o.coeffs hwf (by omega) (by omega)
    refine ⟨{ old with coeffs := o.coeffs }, ?_, ?_, rfl⟩
    · unfold logitSetFromProto logitGetProto MixMsg.logSbCoeffs
      simp only
      rw [hrt, ok_bind]
    · intro x
      unfold logitObjLogWeights
      rw [hn]
  · have hrt : matToEigen (matToProto o.coeffs) = .ok ⟨0, 0, []⟩ := by
      unfold matToEigen matToProto
      have : ¬ ((o.coeffs.rows : ℤ) > 0 ∧ (o.coeffs.cols : ℤ) > 0) := by omega
      simp only [if_neg this]
    refine ⟨{ old with coeffs := ⟨0, 0, []⟩ }, ?_, ?_, rfl⟩
    · unfold logitSetFromProto logitGetProto MixMsg.logSbCoeffs
      simp only
      rw [hrt, ok_bind]
    · intro x
      have hc0 : o.coeffs.cols = 0 := by omega
      unfold logitObjLogWeights
      simp only [hn]
      rw [if_neg (by omega), if_neg (by omega), hc0]
      simp only [List.range_zero, List.map_nil]

example : (⟨3, ⟨2, 2, [1, 2, 3, 4]⟩, ⟨0, 0, []⟩⟩ : LogitObj).coeffs.WF := rfl

/-- **C127, failing case.** Restoring the state of a logit stick-breaking mixing into a new object leaves
that without components: its weights are undefined behaviour, whatever was saved. -/
theorem c127_logit_sb_violated (o : LogitObj) (hwf : o.coeffs.WF) (x : List ℝ) :
    ∃ o', logitSetFromProto logitFresh (logitGetProto o) = .ok o' ∧
      logitObjLogWeights o' x = .error .ub := by
  obtain ⟨c, hc⟩ : ∃ c, matToEigen (matToProto o.coeffs) = .ok c := by
    by_cases h : 0 < o.coeffs.rows ∧ 0 < o.coeffs.cols
    · exact ⟨_, c46_matrix_roundtrip_partial o.coeffs hwf h.1 h.2⟩
    · refine ⟨⟨0, 0, []⟩, ?_⟩
      unfold matToEigen matToProto
      have : ¬ ((o.coeffs.rows : ℤ) > 0 ∧ (o.coeffs.cols : ℤ) > 0) := by omega
      simp only [if_neg this]
  refine ⟨{ logitFresh with coeffs := c }, ?_, ?_⟩
  · unfold logitSetFromProto logitGetProto MixMsg.logSbCoeffs
    simp only
    rw [hc, ok_bind]
  · unfold logitObjLogWeights
    rw [if_neg (by simp [logitFresh])]
    unfold logitLogWeights
    simp [logitFresh]

end Bayesmix
