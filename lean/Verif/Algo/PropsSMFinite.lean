import Verif.Algo.PropsGibbs
import Verif.Mixing.SeriesMono

/-!
# C83 for a mixture of finite mixtures

The sampler asks the mixing for the masses next to two clusters, whatever their number, and gets
`log (c + γ)` for an existing cluster and `log (ρ γ)` for a new one, where `ρ` is the quotient of entries
three and two of the table of coefficients. `PropsSMMass.lean` says which numbers the table holds.
-/

namespace Bayesmix.SplitMerge
open Bayesmix.Mixing Bayesmix.Gibbs Bayesmix.Hierarchies

variable {G H Θ : Type} [AddCommGroup G]

/-- The numbers that a mixture of finite mixtures hands to the split-merge sampler once entries two and
three of its table are known; `ρ` is their quotient. -/
noncomputable def mfmTableScores (pred : H → ℕ → ℝ) (γ ρ : ℝ) : Scores H :=
  ⟨pred, fun _ _ c => (stdLog (c.toNat + γ)).toReal, fun _ _ => (stdLog (ρ * γ)).toReal⟩

/-- Detailed balance, for the weights `π`, of a split from `s` to `s'` with log proposal probability `q` and
log acceptance rate `rate` against a merge back with log acceptance rate `-rate`. -/
def SplitBalances (π : List ℕ → ℝ) (s s' : Alg G H Θ) (q rate : ℝ) : Prop :=
  π s.alloc * Real.exp q * min 1 (Real.exp rate) = π s'.alloc * min 1 (Real.exp (-rate))

theorem mfm_wgt {pred : H → ℕ → ℝ} {γ ρ : ℝ} (hγ : 0 < γ) (n : ℕ) {k : ℕ} (hk : 1 ≤ k) :
    wgt (mfmTableScores pred γ ρ) n k =
      Real.log (∏ j ∈ Finset.range k, (γ + j)) - Real.log γ := by
  induction k, hk using Nat.le_induction with
  | base => simp
  | succ k hk ih =>
    have hp : 0 < ∏ j ∈ Finset.range k, (γ + (j : ℝ)) := Finset.prod_pos fun j _ => by positivity
    have hc : 0 < (k : ℝ) + γ := by positivity
    have e : (mfmTableScores pred γ ρ).exist n 2 (k : ℤ) = Real.log (γ + k) := by
      simp only [mfmTableScores, Int.toNat_natCast, stdLog, if_neg hc.ne', EReal.toReal_coe]
      rw [add_comm]
    rw [wgt_succ _ n hk, ih, e, Finset.prod_range_succ, Real.log_mul hp.ne' (by linarith)]
    ring

theorem mfmPosterior_exp {γ : ℝ} (hγ : 0 < γ) {W : ℕ → ℝ} (hW : ∀ k, 1 ≤ k → 0 < W k)
    (m : Finset ℕ → ℝ) {al : List ℕ} (hne : al ≠ []) :
    mfmPosterior γ W m al = Real.exp (Real.log (W al.toFinset.card) + ∑ c ∈ al.toFinset,
      (Real.log (∏ j ∈ Finset.range (membersIn (Finset.range al.length) al c).card, (γ + (j : ℝ))) +
        m (membersIn (Finset.range al.length) al c))) := by
  have h1 : 1 ≤ al.toFinset.card := by
    apply Finset.card_pos.mpr
    obtain ⟨z, hz⟩ := List.exists_mem_of_ne_nil _ hne
    exact ⟨z, List.mem_toFinset.mpr hz⟩
  rw [mfmPosterior, Finset.sum_add_distrib, ← add_assoc, Real.exp_add, Real.exp_add,
    Real.exp_log (hW _ h1)]
  congr 2
  rw [Real.exp_sum]
  apply Finset.prod_congr rfl
  intro c _
  rw [Real.exp_log (Finset.prod_pos fun j _ => by positivity), count_eq_card]

/-- **C83, mixture of finite mixtures.** A split of a state with `K` clusters balances with its reverse
merge, for the posterior with the coefficients `W`, if and only if the quotient that the code takes from
its table is `W (K + 1) / W K`. -/
theorem c83_finite_mixture_balance_iff (E : Env G H Θ) (pred : H → ℕ → ℝ) {γ ρ : ℝ} (hγ : 0 < γ)
    (hρ : 0 < ρ) {W : ℕ → ℝ} (hW : ∀ k, 1 ≤ k → 0 < W k) (nRestr : ℕ) (hk : E.kind ≠ .other) (n : ℕ)
    (s : Alg G H Θ) (hs : Consistent E.contrib n s) (hne : NoEmptyOn (Finset.range n) s)
    (i j : ℕ) (hi : i < n) (hj : j < n) (hij : i ≠ j) (z : MHNoise) (r : ℕ → ℕ)
    (m : Finset ℕ → ℝ) (hm : MargLik E (mfmTableScores pred γ ρ) s.hyp m)
    (L L' : Launch G H Θ) (rate : ℝ) (s' : Alg G H Θ)
    (hL : launch E (mfmTableScores pred γ ρ) nRestr s i j z = .ok L)
    (hA : logArate E (mfmTableScores pred γ ρ) s L i j r = .ok (true, L', rate))
    (hP : proposalUpdate E s L' i j true = .ok s') :
    ∃ q, Reverse E (mfmTableScores pred γ ρ) nRestr n i j z s s' L L' r rate q ∧
      (SplitBalances (mfmPosterior γ W m) s s' q rate ↔
        ρ = W (s.alloc.toFinset.card + 1) / W s.alloc.toFinset.card) := by
  obtain ⟨q, hrev, hs', hne', hlen, hrate⟩ := split_rate E _ nRestr hk n s hs hne i j hi hj hij z r m hm
    L L' rate s' hL hA hP
  refine ⟨q, hrev, ?_⟩
  have hall : ∀ t : Alg G H Θ, Consistent E.contrib n t → t.alloc ≠ [] := by
    intro t ht' e
    have := ht'.len; rw [e] at this; simp at this; omega
  have hsum : ∀ t : Alg G H Θ, Consistent E.contrib n t → NoEmptyOn (Finset.range n) t →
      ∑ k ∈ Finset.range t.clus.length, (wgt (mfmTableScores pred γ ρ) n
          (membersIn (Finset.range n) t.alloc k).card + m (membersIn (Finset.range n) t.alloc k)) =
        ∑ k ∈ Finset.range t.clus.length, (Real.log (∏ j ∈ Finset.range
          (membersIn (Finset.range n) t.alloc k).card, (γ + (j : ℝ))) +
            m (membersIn (Finset.range n) t.alloc k)) - t.clus.length * Real.log γ := by
    intro t ht' hnt
    have : (t.clus.length : ℝ) * Real.log γ = ∑ _k ∈ Finset.range t.clus.length, Real.log γ := by simp
    rw [this, ← Finset.sum_sub_distrib]
    refine Finset.sum_congr rfl fun k hk' => ?_
    rw [mfm_wgt hγ n (members_card_pos ht' hnt (Finset.mem_range.mp hk'))]
    ring
  have hnew : (mfmTableScores pred γ ρ).fresh n 2 = Real.log ρ + Real.log γ := by
    simp only [mfmTableScores, stdLog, if_neg (mul_pos hρ hγ).ne', EReal.toReal_coe]
    exact Real.log_mul hρ.ne' hγ.ne'
  rw [hsum s hs hne, hsum s' hs' hne', hnew] at hrate
  have hK : 1 ≤ s.clus.length := clus_pos hs (by omega)
  rw [SplitBalances, mfmPosterior_exp hγ hW m (hall s hs), mfmPosterior_exp hγ hW m (hall s' hs'),
    balance_iff, hs.len, hs'.len, labels_eq_range hs hne, labels_eq_range hs' hne',
    Finset.card_range, Finset.card_range, hrate, hlen]
  have hw0 := hW _ hK
  have hw1 := hW (s.clus.length + 1) (by omega)
  push_cast
  constructor
  · intro h
    apply Real.log_injOn_pos (Set.mem_Ioi.mpr hρ) (Set.mem_Ioi.mpr (div_pos hw1 hw0))
    rw [Real.log_div hw1.ne' hw0.ne']
    linarith
  · intro h
    rw [h, Real.log_div hw1.ne' hw0.ne']
    ring

theorem trueV_ratio_lt {γ lam : ℝ} (hγ : 0 < γ) (hl : 0 < lam) {k l n : ℕ} (hn : 2 ≤ n) (hk : 1 ≤ k)
    (h : k < l) : trueV γ lam (k + 1) n / trueV γ lam k n < trueV γ lam (l + 1) n / trueV γ lam l n := by
  obtain ⟨n, rfl⟩ : ∃ m, n = m + 2 := ⟨n - 2, by omega⟩
  induction l, h using Nat.le_induction with
  | base =>
    obtain ⟨p, rfl⟩ : ∃ p, k = p + 1 := ⟨k - 1, by omega⟩
    exact trueV_ratio_t hγ hl p n
  | succ l hl' ih =>
    obtain ⟨p, rfl⟩ : ∃ p, l = p + 1 := ⟨l - 1, by omega⟩
    exact ih.trans (trueV_ratio_t hγ hl p n)

theorem trueV_ratio_gt {γ lam : ℝ} (hγ : 0 < γ) (hl : 0 < lam) {k n M : ℕ} (hk : 1 ≤ k) (h : n < M) :
    trueV γ lam (k + 1) M / trueV γ lam k M < trueV γ lam (k + 1) n / trueV γ lam k n := by
  obtain ⟨p, rfl⟩ : ∃ p, k = p + 1 := ⟨k - 1, by omega⟩
  induction M, h using Nat.le_induction with
  | base => exact trueV_ratio_n hγ hl p n
  | succ M hM ih => exact (trueV_ratio_n hγ hl p M).trans ih

/-- **C83, mixture of finite mixtures, violation.** Let the table hold the exact coefficients for `M` rows.
With the coefficients of all `n` rows, a split of a state with `K` clusters balances with its reverse merge
if and only if `K = 2`. With those of fewer rows it does not balance if `K ≤ 2`, with those of more rows it
does not balance if `K ≥ 2`. -/
theorem c83_finite_mixture_violated (E : Env G H Θ) (pred : H → ℕ → ℝ) {γ lam : ℝ} (hγ : 0 < γ)
    (hl : 0 < lam) (M : ℕ) (ρ : ℝ) (hρ : ρ = trueV γ lam 3 M / trueV γ lam 2 M)
    (nRestr : ℕ) (hk : E.kind ≠ .other) (n : ℕ)
    (s : Alg G H Θ) (hs : Consistent E.contrib n s) (hne : NoEmptyOn (Finset.range n) s)
    (i j : ℕ) (hi : i < n) (hj : j < n) (hij : i ≠ j) (z : MHNoise) (r : ℕ → ℕ)
    (m : Finset ℕ → ℝ) (hm : MargLik E (mfmTableScores pred γ ρ) s.hyp m)
    (L L' : Launch G H Θ) (rate : ℝ) (s' : Alg G H Θ)
    (hL : launch E (mfmTableScores pred γ ρ) nRestr s i j z = .ok L)
    (hA : logArate E (mfmTableScores pred γ ρ) s L i j r = .ok (true, L', rate))
    (hP : proposalUpdate E s L' i j true = .ok s') :
    ∃ q, Reverse E (mfmTableScores pred γ ρ) nRestr n i j z s s' L L' r rate q ∧
      (M = n → (SplitBalances (mfmPosterior γ (fun k => trueV γ lam k n) m) s s' q rate ↔
        s.alloc.toFinset.card = 2)) ∧
      (M < n → s.alloc.toFinset.card ≤ 2 →
        ¬ SplitBalances (mfmPosterior γ (fun k => trueV γ lam k n) m) s s' q rate) ∧
      (n < M → 2 ≤ s.alloc.toFinset.card →
        ¬ SplitBalances (mfmPosterior γ (fun k => trueV γ lam k n) m) s s' q rate) := by
  have hpos : ∀ k n, 1 ≤ k → 0 < trueV γ lam k n := fun k n _ => trueV_pos hγ hl k n
  obtain ⟨q, hrev, hb⟩ := c83_finite_mixture_balance_iff E pred hγ
    (by rw [hρ]; exact div_pos (hpos _ _ (by omega)) (hpos _ _ (by omega)))
    (W := fun k => trueV γ lam k n) (fun k h => hpos k n h) nRestr hk n s hs hne i j hi hj hij z r m hm
    L L' rate s' hL hA hP
  refine ⟨q, hrev, ?_⟩
  rw [hb, hρ]
  have hn : 2 ≤ n := by omega
  have hK : 1 ≤ s.alloc.toFinset.card := by
    rw [labels_eq_range hs hne, Finset.card_range]
    exact clus_pos hs (by omega)
  refine ⟨?_, ?_, ?_⟩
  · rintro rfl
    constructor
    · intro h
      rcases lt_trichotomy s.alloc.toFinset.card 2 with h' | h' | h'
      · exact absurd h (trueV_ratio_lt hγ hl hn hK h').ne'
      · exact h'
      · exact absurd h (trueV_ratio_lt hγ hl hn (by omega) h').ne
    · intro h; rw [h]
  · intro h h' e
    have h1 := trueV_ratio_gt hγ hl (k := 2) (by omega) h
    rcases h'.lt_or_eq with h2 | h2
    · have h3 := trueV_ratio_lt hγ hl hn hK h2
      linarith
    · rw [h2] at e
      linarith
  · intro h h' e
    have h1 := trueV_ratio_gt hγ hl (k := 2) (by omega) h
    rcases h'.lt_or_eq with h2 | h2
    · have h3 := trueV_ratio_lt hγ hl hn (by omega) h2
      linarith
    · rw [← h2] at e
      linarith

/-- The hypotheses are met together: NNIG hierarchy, three rows in one cluster, the table for all rows. -/
example (y : ℕ → ℝ) (draw : NIG → ℕ → UniLS) (hyp : NIG → List (UniLS × ℤ) → ℕ → NIG)
    (z : MHNoise) (r : ℕ → ℕ) (zi : InitNoise) (o : Hier (ℝ × ℝ) NIG UniLS)
    (ho : o.saved = false) (θ0 : UniLS) (ρ : ℝ) (hρ : ρ = trueV 2 1 3 3 / trueV 2 1 2 3) :
    ∃ s m L L' rate s' q,
      initAlloc (nnigEnv y draw hyp) true 1 3 ⟨0, 1, 2, 1⟩ θ0 zi [o] = .ok s ∧
      Reverse (nnigEnv y draw hyp) (mfmTableScores (fun h x => nnigMargLpdf h (y x)) 2 ρ) 5 3 0 1 z
        s s' L L' r rate q ∧
      ¬ SplitBalances (mfmPosterior 2 (fun k => trueV 2 1 k 3) m) s s' q rate := by
  obtain ⟨s, e, hs, hlen, hh, -⟩ := initAlloc_ok (E := nnigEnv y draw hyp) (upd := true) (K := 1)
    (n := 3) (h0 := ⟨0, 1, 2, 1⟩) (θ0 := θ0) zi (o := o) (by simp [CanSave, nnigEnv]) one_pos (by omega)
    (by simp [Hier.CacheOk, ho])
  obtain ⟨m, hm, -⟩ := c83_nnig_marginal y draw hyp
    (mfmTableScores (fun h x => nnigMargLpdf h (y x)) 2 ρ).exist
    (mfmTableScores (fun h x => nnigMargLpdf h (y x)) 2 ρ).fresh s.hyp (by rw [hh]; norm_num)
    (by rw [hh]; norm_num) (by rw [hh]; norm_num)
  have htog : together s.alloc 0 1 := by
    obtain ⟨a, ha, hal⟩ := hs.cons.on.labelled 0 (by simp)
    obtain ⟨b, hb, hbl⟩ := hs.cons.on.labelled 1 (by simp)
    have : a = b := by omega
    rw [together, ha, hb, this]
  have hk : (nnigEnv y draw hyp).kind ≠ .other := by simp [nnigEnv]
  obtain ⟨L, L', rate, s', hL, hA, hP⟩ := split_exists (nnigEnv y draw hyp)
    (mfmTableScores (fun h x => nnigMargLpdf h (y x)) 2 ρ) 5 hk 3 s hs.cons 0 1 (by omega) (by omega)
    (by omega) htog z r
  obtain ⟨q, h1, h2⟩ := c83_finite_mixture_violated (nnigEnv y draw hyp)
    (fun h x => nnigMargLpdf h (y x)) (γ := 2) (lam := 1) two_pos one_pos 3 ρ hρ 5 hk 3 s hs.cons
    hs.noEmpty 0 1 (by omega) (by omega) (by omega) z r m hm L L' rate s' hL hA hP
  refine ⟨s, m, L, L', rate, s', q, e, h1, fun hb => ?_⟩
  have h3 := (h2.1 rfl).mp hb
  rw [labels_eq_range hs.cons hs.noEmpty, Finset.card_range] at h3
  omega

end Bayesmix.SplitMerge
