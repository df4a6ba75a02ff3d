import Verif.Algo.Density
import Verif.Mixing.Props
import Verif.Alloc.Sweep
import Verif.Utils.Lemmas
import Mathlib.MeasureTheory.Integral.Bochner.Basic
import Mathlib.MeasureTheory.Measure.Dirac

/-!
# C54: density estimates are mixtures
-/

namespace Bayesmix.Density
open Bayesmix.Mixing MeasureTheory

variable {σ X : Type}

theorem le_foldr_max (l : List EReal) : ∀ x ∈ l, x ≤ l.foldr max ⊥ := by
  induction l with
  | nil => simp
  | cons a l ih =>
    intro x hx
    rcases List.mem_cons.mp hx with rfl | h
    · exact le_max_left _ _
    · exact (ih x h).trans (le_max_right _ _)

theorem foldr_max_mem (l : List EReal) : l.foldr max ⊥ = ⊥ ∨ l.foldr max ⊥ ∈ l := by
  induction l with
  | nil => simp
  | cons a l ih =>
    simp only [List.foldr_cons]
    rcases max_choice a (l.foldr max ⊥) with h | h
    · right; rw [h]; simp
    · rw [h]
      rcases ih with h' | h'
      · exact .inl h'
      · exact .inr (List.mem_cons_of_mem _ h')

/-- `log_sum_exp` of logarithms is the logarithm of the sum. -/
theorem logSumExp_isLogOf {l : List EReal} {xs : List ℝ} (h : List.Forall₂ IsLogOf l xs) :
    IsLogOf (logSumExp l) xs.sum := by
  have hnt : ∀ x ∈ l, x ≠ ⊤ := by
    intro x hx
    obtain ⟨k, hk, rfl⟩ := List.getElem_of_mem hx
    have := (List.forall₂_iff_get.mp h).2 k hk (by rw [← h.length_eq]; exact hk)
    simp only [List.get_eq_getElem] at this
    rcases this with ⟨-, e⟩ | ⟨-, e⟩ <;> rw [e] <;> simp
  obtain ⟨m, hm⟩ : ∃ m, m = l.foldr max ⊥ := ⟨_, rfl⟩
  have hle : ∀ x ∈ l, x ≤ m := by rw [hm]; exact le_foldr_max l
  have hxs : xs = l.map stdExp := by
    clear hnt hm hle
    induction h with
    | nil => rfl
    | cons a _ ih => rw [List.map_cons, stdExp_of_isLogOf a, ← ih]
  unfold logSumExp
  simp only [← hm]
  rcases foldr_max_mem l with hb | hmem
  · rw [← hm] at hb
    rw [if_pos (.inl hb), hb]
    right
    refine ⟨?_, rfl⟩
    rw [hxs]
    apply List.sum_eq_zero
    intro y hy
    obtain ⟨x, hx, rfl⟩ := List.mem_map.mp hy
    have := hle x hx
    rw [hb, le_bot_iff] at this
    simp [stdExp, this]
  · rw [← hm] at hmem
    by_cases hb : m = ⊥
    · rw [if_pos (.inl hb), hb]
      right
      refine ⟨?_, rfl⟩
      rw [hxs]
      apply List.sum_eq_zero
      intro y hy
      obtain ⟨x, hx, rfl⟩ := List.mem_map.mp hy
      have := hle x hx
      rw [hb, le_bot_iff] at this
      simp [stdExp, this]
    · have ht := hnt m hmem
      rw [if_neg (by simp [hb, ht])]
      lift m to ℝ using ⟨ht, hb⟩
      have hs : (l.map fun x => stdExp (x - m)).sum = Real.exp (-m) * (l.map stdExp).sum := by
        rw [← List.sum_map_mul_left]
        congr 1
        apply List.map_congr_left
        intro x hx
        have hxt := hnt x hx
        by_cases hxb : x = ⊥
        · simp [stdExp, hxb]
        · lift x to ℝ using ⟨hxt, hxb⟩
          rw [← EReal.coe_sub]
          simp only [stdExp, EReal.coe_ne_bot, if_false, EReal.toReal_coe]
          rw [← Real.exp_add]
          ring_nf
      have hpos : 0 < (l.map stdExp).sum := by
        have h0 : ∀ y ∈ l.map stdExp, 0 ≤ y := by
          intro y hy
          obtain ⟨x, -, rfl⟩ := List.mem_map.mp hy
          unfold stdExp; split <;> positivity
        have h1 : stdExp (m : EReal) ≤ (l.map stdExp).sum :=
          List.single_le_sum h0 _ (List.mem_map.mpr ⟨_, hmem, rfl⟩)
        have h2 : 0 < stdExp (m : EReal) := by
          simp only [stdExp, EReal.coe_ne_bot, if_false]; positivity
        linarith
      rw [hs, hxs]
      left
      refine ⟨hpos, ?_⟩
      have hne : Real.exp (-m) * (l.map stdExp).sum ≠ 0 := by positivity
      rw [stdLog, if_neg hne, ← EReal.coe_add, Real.log_mul (Real.exp_ne_zero _) hpos.ne',
        Real.log_exp]
      congr 1
      ring

/-- The density of a mixture with the given weights: the sum over `j` of weight `j` times density
`j`. -/
noncomputable def mixture (w : List ℝ) (dens : ℕ → X → ℝ) (x : X) : ℝ :=
  ∑ j ∈ Finset.range w.length, w.getD j 0 * dens j x

theorem zipIdx_sum (w : List ℝ) (f : ℕ → ℝ) (i : ℕ) :
    ((w.zipIdx i).map fun p => f p.2 * p.1).sum =
      ∑ j ∈ Finset.range w.length, w.getD j 0 * f (i + j) := by
  induction w generalizing i with
  | nil => simp
  | cons a w ih =>
    rw [List.zipIdx_cons, List.map_cons, List.sum_cons, ih, List.length_cons,
      Finset.sum_range_succ']
    simp only [List.getD_cons_succ, List.getD_cons_zero, add_zero]
    rw [add_comm, mul_comm a]
    congr 1
    apply Finset.sum_congr rfl
    intro j _
    rw [add_assoc, add_comm 1 j]

theorem zipIdx_forall₂ {ms : List EReal} {ws : List ℝ} (h : List.Forall₂ IsLogOf ms ws)
    {l : ℕ → EReal} {f : ℕ → ℝ} (hl : ∀ j, IsLogOf (l j) (f j)) (i : ℕ) :
    List.Forall₂ IsLogOf ((ms.zipIdx i).map fun p => l p.2 + p.1)
      ((ws.zipIdx i).map fun p => f p.2 * p.1) := by
  induction h generalizing i with
  | nil => simp
  | cons a _ ih =>
    simp only [List.zipIdx_cons, List.map_cons]
    exact .cons (isLogOf_mul (hl _) a) (ih _)

/-- A row of the matrix of local estimates. -/
theorem row_isLogOf {ms : List EReal} {ws : List ℝ} (h : List.Forall₂ IsLogOf ms ws)
    {l : ℕ → EReal} {f : ℕ → ℝ} (hl : ∀ j, IsLogOf (l j) (f j)) {a m : EReal} {g w : ℝ}
    (ha : IsLogOf a g) (hm : IsLogOf m w) :
    IsLogOf (logSumExp ((ms.zipIdx.map fun p => l p.2 + p.1) ++ [a + m]))
      ((∑ j ∈ Finset.range ws.length, ws.getD j 0 * f j) + w * g) := by
  have := logSumExp_isLogOf (List.rel_append (zipIdx_forall₂ h hl 0)
    (List.Forall₂.cons (isLogOf_mul ha hm) .nil))
  rw [List.sum_append, zipIdx_sum] at this
  simpa [mul_comm g w] using this

theorem sum_getD (w : List ℝ) : ∑ j ∈ Finset.range w.length, w.getD j 0 = w.sum := by
  induction w with
  | nil => simp
  | cons a w ih =>
    rw [List.length_cons, Finset.sum_range_succ', List.sum_cons, ← ih]
    simp [add_comm]

theorem mixture_integral [MeasurableSpace X] {w : List ℝ} {dens : ℕ → X → ℝ} {μ : Measure X}
    (h : ∀ j, j < w.length → Integrable (dens j) μ ∧ ∫ x, dens j x ∂μ = 1) :
    Integrable (mixture w dens) μ ∧ ∫ x, mixture w dens x ∂μ = w.sum := by
  have hi : ∀ j ∈ Finset.range w.length, Integrable (fun x => w.getD j 0 * dens j x) μ :=
    fun j hj => ((h j (Finset.mem_range.mp hj)).1).const_mul _
  constructor
  · exact integrable_finset_sum _ hi
  · unfold mixture
    rw [integral_finset_sum _ hi, ← sum_getD]
    apply Finset.sum_congr rfl
    intro j hj
    rw [integral_const_mul, (h j (Finset.mem_range.mp hj)).2, mul_one]

/-- What a density estimate should be: at every grid point the logarithm of the mixture of the
component densities `dens` and of the density `mdens` of a new cluster, with nonnegative weights
that sum to one. -/
structure IsMixtureEstimate (F : X → EReal) (w : List ℝ) (wn : ℝ) (dens : ℕ → X → ℝ)
    (mdens : X → ℝ) : Prop where
  nonneg : ∀ y ∈ w, 0 ≤ y
  newNonneg : 0 ≤ wn
  total : w.sum + wn = 1
  value : ∀ x, IsLogOf (F x) (mixture w dens x + wn * mdens x)

/-- C54: a mixture estimate is a density: if the components integrate to one under some measure,
so does the exponential of the estimate. -/
theorem c54_integrates_to_one [MeasurableSpace X] {F : X → EReal} {w : List ℝ} {wn : ℝ}
    {dens : ℕ → X → ℝ} {mdens : X → ℝ} (h : IsMixtureEstimate F w wn dens mdens) {μ : Measure X}
    (hd : ∀ j, j < w.length → Integrable (dens j) μ ∧ ∫ x, dens j x ∂μ = 1)
    (hm : Integrable mdens μ) (hm1 : ∫ x, mdens x ∂μ = 1) :
    ∫ x, stdExp (F x) ∂μ = 1 := by
  have e : (fun x => stdExp (F x)) = fun x => mixture w dens x + wn * mdens x :=
    funext fun x => stdExp_of_isLogOf (h.value x)
  rw [e, integral_add (mixture_integral hd).1 (hm.const_mul _), (mixture_integral hd).2,
    integral_const_mul, hm1, mul_one, h.total]

/-- Masses of a mixing whose queries leave it unchanged. -/
theorem existingMasses_pure {M : MixOps σ} {s : σ} {n k : ℕ} {f : ℕ → EReal}
    (h : ∀ c, M.existing s n k c = .ok (f c, s)) (cards : List ℕ) :
    existingMasses M n k s cards = .ok (cards.map f, s) := by
  induction cards with
  | nil => rfl
  | cons c cs ih => simp [existingMasses, h, ok_bind, ih]

theorem forall₂_map {f : ℕ → EReal} {g : ℕ → ℝ} {cards : List ℕ}
    (h : ∀ c ∈ cards, IsLogOf (f c) (g c)) :
    List.Forall₂ IsLogOf (cards.map f) (cards.map g) := by
  induction cards with
  | nil => simp
  | cons c cs ih =>
    exact .cons (h c (by simp)) (ih fun d hd => h d (by simp [hd]))

theorem marginal_mix {M : MixOps σ} {s s₁ s₂ : σ} {nObjs n : ℕ} (ho : 0 < nObjs) {cards : List ℕ}
    {like : ℕ → X → EReal} {marg : X → EReal} {dens : ℕ → X → ℝ} {mdens : X → ℝ}
    (hl : ∀ j x, IsLogOf (like j x) (dens j x)) (hg : ∀ x, IsLogOf (marg x) (mdens x))
    {ms : List EReal} {mn : EReal} {w : List ℝ} {wn : ℝ}
    (h1 : existingMasses M n cards.length s cards = .ok (ms, s₁))
    (h2 : M.new s₁ n cards.length = .ok (mn, s₂)) (hw : List.Forall₂ IsLogOf ms w)
    (hwn : IsLogOf mn wn) (hpos : ∀ y ∈ w, 0 ≤ y) (hposn : 0 ≤ wn) (ht : w.sum + wn = 1) :
    ∃ F, (∀ grid, marginalLpdf M s nObjs n cards like marg grid = .ok (grid.map F, s₂)) ∧
      IsMixtureEstimate F w wn dens mdens := by
  refine ⟨fun x => logSumExp ((ms.zipIdx.map fun p => like p.2 x + p.1) ++ [marg x + mn]),
    fun grid => ?_, hpos, hposn, ht, fun x => row_isLogOf hw (fun j => hl j x) (hg x) hwn⟩
  unfold marginalLpdf
  rw [if_neg (by omega), h1, ok_bind]
  simp only [h2, ok_bind]

/-- C54 for the Dirichlet process: with a saved total mass `m > 0`, the estimate is a mixture with
weights `card / (n + m)` and `m / (n + m)`. -/
theorem c54_dirichlet {m : ℝ} (hm : 0 < m) {nObjs n : ℕ} (ho : 0 < nObjs) {cards : List ℕ}
    (hn : cards.sum = n) {like : ℕ → X → EReal} {marg : X → EReal} {dens : ℕ → X → ℝ}
    {mdens : X → ℝ} (hl : ∀ j x, IsLogOf (like j x) (dens j x))
    (hg : ∀ x, IsLogOf (marg x) (mdens x)) :
    ∃ F, (∀ grid, marginalLpdf dpOps (dpSetState m) nObjs n cards like marg grid =
        .ok (grid.map F, dpSetState m)) ∧
      IsMixtureEstimate F (cards.map fun c : ℕ => (c : ℝ) / (n + m)) (m / (n + m)) dens mdens := by
  have hs : DPRun (.fixed m) (dpSetState m) ∨ ∃ m', 0 < m' ∧ dpSetState m = dpSetState m' :=
    .inr ⟨m, hm, rfl⟩
  obtain ⟨h1, h2, h3, -⟩ := c25_dirichlet_masses hs cards n hn
  obtain ⟨h4, h5⟩ := c26_dirichlet_log_mass_partial hs n false
  have e1 : ∀ c, dpMassExisting (dpSetState m) n false c = (c : ℝ) / (n + m) := by
    intro c; simp [dpMassExisting, dpSetState]; norm_num
  have e2 : dpMassNew (dpSetState m) n false = m / (n + m) := by simp [dpMassNew, dpSetState]
  refine marginal_mix ho hl hg (existingMasses_pure (M := dpOps) (fun c => rfl) _) rfl ?_ ?_ ?_ ?_ ?_
  · exact forall₂_map fun c _ => by rw [← e1]; exact h4 c
  · rw [← e2]; exact h5 ⟨m, hm, rfl⟩
  · intro y hy
    obtain ⟨c, -, rfl⟩ := List.mem_map.mp hy
    rw [← e1]; exact h2 c
  · rw [← e2]; exact h3
  · rw [← h1, e2]; simp only [e1]

/-- C54 for the Pitman-Yor process with strength `a` and discount `b`: the estimate is a mixture
with weights `(card - b) / (n + a)` and `(a + b k) / (n + a)`. -/
theorem c54_pitman_yor {a b : ℝ} {s : PYState} (hs : pyInit a b = .ok s) {nObjs n : ℕ}
    (ho : 0 < nObjs) {cards : List ℕ} (hn : cards.sum = n) (hpos : 0 < n)
    (hc : ∀ c ∈ cards, 0 < c) {like : ℕ → X → EReal} {marg : X → EReal} {dens : ℕ → X → ℝ}
    {mdens : X → ℝ} (hl : ∀ j x, IsLogOf (like j x) (dens j x))
    (hg : ∀ x, IsLogOf (marg x) (mdens x)) :
    ∃ F, (∀ grid, marginalLpdf pyOps s nObjs n cards like marg grid = .ok (grid.map F, s)) ∧
      IsMixtureEstimate F (cards.map fun c : ℕ => ((c : ℝ) - b) / (n + a))
        ((a + b * cards.length) / (n + a)) dens mdens := by
  obtain ⟨h1, h2, h3, -⟩ := c27_pitman_yor_masses hs cards n hn hpos hc
  have hlen : 0 < cards.length := by
    rcases cards with _ | ⟨c, t⟩
    · simp at hn; omega
    · simp
  obtain ⟨h4, h5⟩ := c26_pitman_yor_log_mass hs n cards.length hpos hlen false
  obtain ⟨rfl, -⟩ := pyInit_ok hs
  have e1 : ∀ c ∈ cards, pyMassExisting ⟨a, b⟩ n false c = ((c : ℝ) - b) / (n + a) := by
    intro c hcm; simp [pyMassExisting, (hc c hcm).ne']
  have e2 : pyMassNew ⟨a, b⟩ n cards.length false = (a + b * cards.length) / (n + a) := by
    simp [pyMassNew]
  refine marginal_mix ho hl hg (existingMasses_pure (M := pyOps) (fun c => rfl) _) rfl ?_ ?_ ?_ ?_ ?_
  · exact forall₂_map fun c hcm => by rw [← e1 c hcm]; exact h4 c
  · rw [← e2]; exact h5
  · intro y hy
    obtain ⟨c, hcm, rfl⟩ := List.mem_map.mp hy
    rw [← e1 c hcm]; exact h2 c
  · rw [← e2]; exact h3
  · rw [← h1, e2, List.map_congr_left e1]

/-- C54, the component of a new cluster in Neal8: the average of the densities under the values
drawn from the prior. -/
theorem c54_neal8_component {nAux : ℕ} (h : 0 < nAux) {draws : ℕ → X → EReal} {dens : ℕ → X → ℝ}
    (hl : ∀ j x, IsLogOf (draws j x) (dens j x)) (x : X) :
    IsLogOf (neal8Marginal nAux draws x) ((∑ j ∈ Finset.range nAux, dens j x) / nAux) := by
  have h1 : List.Forall₂ IsLogOf ((List.range nAux).map fun j => draws j x)
      ((List.range nAux).map fun j => dens j x) := forall₂_map fun j _ => hl j x
  have h2 := logSumExp_isLogOf h1
  have h3 : ((List.range nAux).map fun j => dens j x).sum = ∑ j ∈ Finset.range nAux, dens j x :=
    rfl
  rw [h3] at h2
  exact isLogOf_div h2 (by exact_mod_cast h)

/-! ## Mixture of finite mixtures -/

/-- Tables that hold at least `K + 1` entries, with positive values. -/
def PosTab (K : ℕ) (o : Option (List (Option ℝ))) : Prop :=
  ∀ tab, o = some tab → K < tab.length ∧ ∀ (t : ℕ) v, 1 ≤ t → tab[t]? = some (some v) → 0 < v

theorem getV_stored {coef : ℕ → ℕ → ℝ} {s : MFMState} {tab : List (Option ℝ)} {t n : ℕ} {v : ℝ}
    (h : s.table = some tab) (hv : tab[t]? = some (some v)) : getV coef s t n = .ok (v, s) := by
  unfold getV
  obtain ⟨g, o⟩ := s
  simp only at h
  subst h
  simp only [Option.getD_some]
  rw [vget_ok hv, ok_bind]

theorem getV_pos {coef : ℕ → ℕ → ℝ} (hc : ∀ t n, 1 ≤ t → 1 ≤ n → 0 < coef t n) {s : MFMState}
    {K t n : ℕ} (hs : PosTab K s.table) (hK : K ≤ n) (ht : t ≤ K) (h1 : 1 ≤ t) :
    ∃ v tab, getV coef s t n = .ok (v, { s with table := some tab }) ∧ 0 < v ∧
      PosTab K (some tab) ∧ tab[t]? = some (some v) ∧
      ∀ (u : ℕ) w, (∃ tab', s.table = some tab' ∧ tab'[u]? = some (some w)) →
        tab[u]? = some (some w) := by
  obtain ⟨tab, htab⟩ : ∃ tab, tab = s.table.getD (List.replicate (n + 1) none) := ⟨_, rfl⟩
  have hlen : K < tab.length := by
    cases h : s.table with
    | none => rw [htab, h]; simp; omega
    | some t => rw [htab, h]; exact (hs t h).1
  have hpos : ∀ (t : ℕ) v, 1 ≤ t → tab[t]? = some (some v) → 0 < v := by
    cases h : s.table with
    | none => intro t v; rw [htab, h]; simp [List.getElem?_replicate]
    | some t => rw [htab, h]; exact (hs t h).2
  have hold : ∀ (u : ℕ) w, (∃ tab', s.table = some tab' ∧ tab'[u]? = some (some w)) →
      tab[u]? = some (some w) := by
    rintro u w ⟨tab', h, h'⟩
    rw [htab, h]; exact h'
  have hlt : t < tab.length := by omega
  have hget : vget tab t = .ok tab[t] := vget_ok (List.getElem?_eq_getElem hlt)
  unfold getV
  rw [← htab]
  simp only [hget, ok_bind]
  cases he : tab[t] with
  | some v =>
    have hv : tab[t]? = some (some v) := by rw [List.getElem?_eq_getElem hlt, he]
    exact ⟨v, tab, rfl, hpos t v h1 hv, fun _ e => by cases e; exact ⟨hlen, hpos⟩, hv, hold⟩
  | none =>
    refine ⟨coef t (n + 1), tab.set t (some (coef t (n + 1))), rfl, hc _ _ h1 (by omega), ?_, ?_,
      ?_⟩
    · intro tab' e
      cases e
      refine ⟨by simpa using hlen, ?_⟩
      intro u w hu hw
      rw [List.getElem?_set] at hw
      split at hw
      · rename_i htu
        simp only [hlt, htu ▸ hlt, if_true, Option.some.injEq] at hw
        rw [← hw]; exact hc _ _ h1 (by omega)
      · exact hpos u w hu hw
    · simp [hlt]
    · intro u w hw
      have hw' := hold u w hw
      rw [List.getElem?_set]
      split
      · rename_i htu
        subst htu
        rw [List.getElem?_eq_getElem hlt, he] at hw'
        simp at hw'
      · exact hw'

theorem mfm_masses {coef : ℕ → ℕ → ℝ} (hc : ∀ t n, 1 ≤ t → 1 ≤ n → 0 < coef t n) {s : MFMState}
    (hγ : 0 < s.gamma) {n : ℕ} {cards : List ℕ} (hne : cards ≠ [])
    (hs : PosTab (cards.length + 1) s.table) (hK : cards.length + 1 ≤ n) (hn : cards.sum = n) :
    ∃ v₁ v₂ s' ms mn, 0 < v₁ ∧ 0 < v₂ ∧
      (∃ s₁ s₂, getV coef s cards.length n = .ok (v₁, s₁) ∧
        getV coef s₁ (cards.length + 1) n = .ok (v₂, s₂)) ∧
      existingMasses (mfmOps coef) n cards.length s cards = .ok (ms, s') ∧
      (mfmOps coef).new s' n cards.length = .ok (mn, s') ∧
      List.Forall₂ IsLogOf ms (cards.map fun c : ℕ => ((c : ℝ) + s.gamma) /
        (n + cards.length * s.gamma + v₂ / v₁ * s.gamma)) ∧
      IsLogOf mn (v₂ / v₁ * s.gamma / (n + cards.length * s.gamma + v₂ / v₁ * s.gamma)) := by
  obtain ⟨k, hk⟩ : ∃ k, k = cards.length := ⟨_, rfl⟩
  have hk1 : 1 ≤ k := by rw [hk]; exact List.length_pos_iff.mpr hne
  rw [← hk] at hs hK ⊢
  obtain ⟨v₁, tab₁, g1, p1, t1, e1, -⟩ := getV_pos hc (t := k) hs hK (by omega) hk1
  obtain ⟨v₂, tab₂, g2, p2, -, e2, o2⟩ :=
    getV_pos hc (s := { s with table := some tab₁ }) (t := k + 1) t1 hK le_rfl (by omega)
  have e1' := o2 k v₁ ⟨tab₁, rfl, e1⟩
  have st1 : getV coef ⟨s.gamma, some tab₂⟩ k n = .ok (v₁, ⟨s.gamma, some tab₂⟩) :=
    getV_stored rfl e1'
  have st2 : getV coef ⟨s.gamma, some tab₂⟩ (k + 1) n = .ok (v₂, ⟨s.gamma, some tab₂⟩) :=
    getV_stored rfl e2
  have hD : 0 < (n : ℝ) + k * s.gamma + v₂ / v₁ * s.gamma := by positivity
  have q0 : ∀ c, (mfmOps coef).existing s n k c = .ok (stdLog ((c : ℕ) + s.gamma) -
      stdLog (n + k * s.gamma + v₂ / v₁ * s.gamma), ⟨s.gamma, some tab₂⟩) := by
    intro c
    simp only [mfmOps, mfmLogMassExisting, g1, ok_bind, g2]
    simp
  have q1 : ∀ c, (mfmOps coef).existing ⟨s.gamma, some tab₂⟩ n k c =
      .ok (stdLog ((c : ℕ) + s.gamma) -
        stdLog (n + k * s.gamma + v₂ / v₁ * s.gamma), ⟨s.gamma, some tab₂⟩) := by
    intro c
    simp only [mfmOps, mfmLogMassExisting, st1, ok_bind, st2]
    simp
  have q2 : (mfmOps coef).new ⟨s.gamma, some tab₂⟩ n k =
      .ok (stdLog (v₂ / v₁ * s.gamma) -
        stdLog (n + k * s.gamma + v₂ / v₁ * s.gamma), ⟨s.gamma, some tab₂⟩) := by
    simp only [mfmOps, mfmLogMassNew, st1, ok_bind, st2]
    simp
  have q3 : existingMasses (mfmOps coef) n k s cards =
      .ok (cards.map fun c : ℕ => stdLog ((c : ℕ) + s.gamma) -
        stdLog (n + k * s.gamma + v₂ / v₁ * s.gamma), ⟨s.gamma, some tab₂⟩) := by
    clear hk
    cases cards with
    | nil => exact absurd rfl hne
    | cons c cs =>
      simp only [existingMasses, q0, ok_bind, existingMasses_pure q1, List.map_cons]
  refine ⟨v₁, v₂, _, _, _, p1, p2, ⟨_, _, g1, g2⟩, q3, q2, ?_, ?_⟩
  · exact forall₂_map fun c _ => isLogOf_div (isLogOf_stdLog (by positivity)) hD
  · exact isLogOf_div (isLogOf_stdLog (by positivity)) hD

theorem mfm_total {γ ρ : ℝ} {cards : List ℕ} {n : ℕ} (hn : cards.sum = n)
    (hD : 0 < (n : ℝ) + cards.length * γ + ρ) :
    (cards.map fun c : ℕ => ((c : ℝ) + γ) / (n + cards.length * γ + ρ)).sum +
      ρ / (n + cards.length * γ + ρ) = 1 := by
  obtain ⟨D, hDe⟩ : ∃ D, D = (n : ℝ) + cards.length * γ + ρ := ⟨_, rfl⟩
  rw [← hDe] at hD ⊢
  have h : ∀ l : List ℕ, (l.map fun c : ℕ => ((c : ℝ) + γ) / D).sum =
      (l.sum + l.length * γ) / D := by
    intro l
    induction l with
    | nil => simp
    | cons c l ih =>
      simp only [List.map_cons, List.sum_cons, ih, List.length_cons]
      push_cast
      ring
  rw [h, hn, ← add_div, ← hDe, div_self hD.ne']

/-- C54 for the mixture of finite mixtures, as far as it holds: if there are fewer clusters than
data and the coefficient table, made for `m` data, is long enough, the estimate is a mixture with
weights `(card + γ) / D` and `ρ / D`, `D = n + k γ + ρ`. On a mixing queried with the same number of
data only, `ρ` is the ratio of coefficients that it should be. Missing: more clusters (see the next
theorem), and the value of `ρ` after queries with another number of data. -/
theorem c54_finite_mixture_partial {γ lam C : ℝ} (hγ : 0 < γ) (hl : 0 < lam)
    {coef : ℕ → ℕ → ℝ} (hc : IsCoef γ lam C coef) {m n : ℕ} {s : MFMState}
    (hs : MFMRun coef γ m s) {nObjs : ℕ} (ho : 0 < nObjs) {cards : List ℕ} (hn : cards.sum = n)
    (hne : cards ≠ []) (hk : cards.length < n) (hkm : cards.length < m) {like : ℕ → X → EReal}
    {marg : X → EReal} {dens : ℕ → X → ℝ} {mdens : X → ℝ}
    (hd : ∀ j x, IsLogOf (like j x) (dens j x)) (hg : ∀ x, IsLogOf (marg x) (mdens x)) :
    ∃ F ρ s', (∀ grid, marginalLpdf (mfmOps coef) s nObjs n cards like marg grid =
        .ok (grid.map F, s')) ∧ 0 < ρ ∧
      (m = n → ρ = coef (cards.length + 1) (n + 1) / coef cards.length (n + 1) * γ) ∧
      IsMixtureEstimate F (cards.map fun c : ℕ => ((c : ℝ) + γ) / (n + cards.length * γ + ρ))
        (ρ / (n + cards.length * γ + ρ)) dens mdens := by
  obtain ⟨hgam, ht⟩ := hs.inv
  have hcp : ∀ t n, 1 ≤ t → 1 ≤ n → 0 < coef t n := fun t n h h' => hc.pos hγ hl h h'
  have hpt : PosTab (cards.length + 1) s.table := by
    intro tab h
    obtain ⟨h1, h2⟩ := ht tab h
    exact ⟨by omega, fun t v h1 hv => by rw [h2 t v hv]; exact hcp _ _ h1 (by omega)⟩
  obtain ⟨v₁, v₂, s', ms, mn, p1, p2, ⟨s₁, s₂, g1, g2⟩, q1, q2, q3, q4⟩ :=
    mfm_masses hcp (by rw [hgam]; exact hγ) hne hpt (by omega) hn
  rw [hgam] at q3 q4
  have hρ : 0 < v₂ / v₁ * γ := by positivity
  have hD : 0 < (n : ℝ) + cards.length * γ + v₂ / v₁ * γ := by positivity
  obtain ⟨F, hF, hF'⟩ := marginal_mix ho hd hg q1 q2 q3 q4
    (by
      intro y hy
      obtain ⟨c, -, rfl⟩ := List.mem_map.mp hy
      positivity) (by positivity) (mfm_total hn hD)
  refine ⟨F, _, s', hF, hρ, ?_, hF'⟩
  rintro rfl
  obtain ⟨r₁, r₂, k1, k2, -⟩ := getV_two ht (show cards.length + 1 ≤ m by omega)
  rw [g1] at k1
  obtain ⟨rfl, rfl⟩ := Prod.mk.inj (Except.ok.inj k1)
  rw [g2] at k2
  rw [(Prod.mk.inj (Except.ok.inj k2)).1]

/-- C54 fails for the mixture of finite mixtures: the state in which every datum is alone makes the
estimate read outside of the coefficient table. -/
theorem c54_finite_mixture_violated {coef : ℕ → ℕ → ℝ} {γ : ℝ} {n : ℕ} {s : MFMState}
    (hs : MFMRun coef γ n s) (hn : 0 < n) (nObjs : ℕ) (like : ℕ → X → EReal) (marg : X → EReal)
    (grid : List X) :
    marginalLpdf (mfmOps coef) s nObjs n (List.replicate n 1) like marg grid = .error .ub := by
  unfold marginalLpdf
  split
  · rfl
  · obtain ⟨k, rfl⟩ : ∃ k, n = k + 1 := ⟨n - 1, by omega⟩
    rw [List.length_replicate]
    have h := (c28_finite_mixture_violated hs (k := k + 1) le_rfl false 1).2.2.1
    have : existingMasses (mfmOps coef) (k + 1) (k + 1) s (List.replicate (k + 1) 1) =
        .error .ub := by
      simp only [List.replicate_succ, existingMasses, mfmOps, h, error_bind]
    rw [this, error_bind]

/-- C54 fails for an algorithm object without data, that is one that only reads the collector: the
estimate clones a unique value that does not exist. -/
theorem c54_reader_violated (M : MixOps σ) (s : σ) (n : ℕ) (cards : List ℕ)
    (like : ℕ → X → EReal) (marg : X → EReal) (grid : List X) :
    marginalLpdf M s 0 n cards like marg grid = .error .ub := rfl

/-- C54, what the samplers save: in a state between two updates of a marginal sampler the
cardinalities of the clusters are positive and sum to the number of data, as the theorems above ask. -/
theorem c54_saved_cards {G H Θ : Type} [AddCommGroup G] {f : ℕ → G} {n : ℕ} {s : Alg G H Θ}
    (h : MarginalOk f n s) :
    (s.clus.map fun o => o.card.toNat).sum = n ∧
      ∀ c ∈ s.clus.map fun o => o.card.toNat, 0 < c := by
  have hcard : ∀ (k : ℕ) o, s.clus[k]? = some o →
      o.card.toNat = (membersIn (Finset.range n) s.alloc k).card := by
    intro k o ho
    rw [h.cons.on.cards k o ho, Int.toNat_natCast]
  have hl : (s.clus.map fun o => o.card.toNat) =
      (List.range s.clus.length).map fun k => (membersIn (Finset.range n) s.alloc k).card := by
    apply List.ext_getElem?
    intro k
    rw [List.getElem?_map, List.getElem?_map]
    rcases Nat.lt_or_ge k s.clus.length with hk | hk
    · rw [List.getElem?_eq_getElem hk, List.getElem?_range hk]
      simp only [Option.map_some]
      rw [hcard k _ (List.getElem?_eq_getElem hk)]
    · rw [List.getElem?_eq_none hk, List.getElem?_eq_none (by simpa using hk)]
      rfl
  have hs : ((List.range s.clus.length).map
      fun k => (membersIn (Finset.range n) s.alloc k).card).sum =
      ∑ k ∈ Finset.range s.clus.length, (membersIn (Finset.range n) s.alloc k).card := rfl
  rw [hl, hs]
  constructor
  · have h1 := Finset.card_eq_sum_card_fiberwise (f := fun i => s.alloc.getD i 0)
      (s := Finset.range n) (t := Finset.range s.clus.length) (by
        intro i hi
        obtain ⟨c, hc, hlt⟩ := h.cons.on.labelled i hi
        simp only [Finset.coe_range, Set.mem_Iio, List.getD_eq_getElem?_getD, hc, Option.getD_some]
        exact hlt)
    rw [Finset.card_range] at h1
    refine Eq.trans ?_ h1.symm
    apply Finset.sum_congr rfl
    intro k _
    congr 1
    ext i
    simp only [membersIn, Finset.mem_filter]
    constructor
    · rintro ⟨hi, hk⟩
      exact ⟨hi, by rw [List.getD_eq_getElem?_getD, hk, Option.getD_some]⟩
    · rintro ⟨hi, hk⟩
      obtain ⟨c, hc, -⟩ := h.cons.on.labelled i hi
      rw [List.getD_eq_getElem?_getD, hc, Option.getD_some] at hk
      exact ⟨hi, by rw [hc, hk]⟩
  · intro c hc
    obtain ⟨k, hk, rfl⟩ := List.mem_map.mp hc
    obtain ⟨i, hi, hik⟩ := h.noEmpty k (by simpa using hk)
    exact Finset.card_pos.mpr ⟨i, by simp only [membersIn, Finset.mem_filter]; exact ⟨hi, hik⟩⟩

/-! ## C84: conditional algorithms -/

theorem stdLog_ne_top (x : ℝ) : stdLog x ≠ ⊤ := by
  unfold stdLog; split <;> simp

theorem cumsum_ne_top (l : List ℝ) (h : ℕ) : cumsum l h ≠ ⊤ := by
  induction h with
  | zero => simp [cumsum]
  | succ h ih => exact EReal.add_ne_top ih (stdLog_ne_top _)

theorem logitCumsum_ne_top (l : List ℝ) (h : ℕ) : logitCumsum l h ≠ ⊤ := by
  induction h with
  | zero => simp [logitCumsum]
  | succ h ih => exact EReal.add_ne_top ih (stdLog_ne_top _)

theorem isLogOf_exp {x : EReal} (h : x ≠ ⊤) : IsLogOf x (stdExp x) := by
  by_cases hb : x = ⊥
  · right; simp [stdExp, hb]
  · left
    lift x to ℝ using ⟨h, hb⟩
    simp only [stdExp, EReal.coe_ne_bot, if_false, EReal.toReal_coe, Real.log_exp]
    exact ⟨Real.exp_pos _, trivial⟩

theorem forall₂_exp {l : List EReal} (h : ∀ x ∈ l, x ≠ ⊤) :
    List.Forall₂ IsLogOf l (l.map stdExp) := by
  induction l with
  | nil => simp
  | cons a l ih =>
    exact .cons (isLogOf_exp (h a (by simp))) (ih fun x hx => h x (by simp [hx]))

theorem conditional_mix {lw : List EReal} (hlw : ∀ x ∈ lw, x ≠ ⊤) {nObjs : ℕ} (ho : 0 < nObjs)
    {like : ℕ → X → EReal} {dens : ℕ → X → ℝ} (hl : ∀ j x, IsLogOf (like j x) (dens j x)) :
    ∃ F, (∀ grid, conditionalLpdf lw nObjs lw.length like grid = .ok (grid.map F)) ∧
      ∀ x, IsLogOf (F x) (mixture (lw.map stdExp) dens x) := by
  refine ⟨fun x => logSumExp ((List.range lw.length).map fun j => lw.getD j ⊥ + like j x),
    fun grid => ?_, fun x => ?_⟩
  · unfold conditionalLpdf
    rw [if_neg (by omega)]
    apply Utils.mapM_ok_of
    intro x _
    rw [Utils.mapM_ok_of _ (fun j => lw.getD j ⊥ + like j x), ok_bind]
    intro j hj
    have hj' : j < lw.length := by simpa using hj
    rw [vget_ok (List.getElem?_eq_getElem hj'), ok_bind]
    simp [hj']
  · have h1 : List.Forall₂ IsLogOf
        ((List.range lw.length).map fun j => lw.getD j ⊥ + like j x)
        ((List.range lw.length).map fun j => (lw.map stdExp).getD j 0 * dens j x) := by
      apply forall₂_map
      intro j hj
      have hj' : j < lw.length := by simpa using hj
      have h2 : lw.getD j ⊥ = lw[j] := by simp [hj']
      have h3 : (lw.map stdExp).getD j 0 = stdExp lw[j] := by simp [hj']
      rw [h2, h3]
      exact isLogOf_mul (isLogOf_exp (hlw _ (List.getElem_mem hj'))) (hl j x)
    have h4 := logSumExp_isLogOf h1
    unfold mixture
    rw [List.length_map]
    exact h4

theorem truncated_mix {sticks : List ℝ} (hv : ∀ v ∈ sticks, 0 ≤ v ∧ v ≤ 1) {nObjs : ℕ}
    (ho : 0 < nObjs) {like : ℕ → X → EReal} {dens : ℕ → X → ℝ}
    (hl : ∀ j x, IsLogOf (like j x) (dens j x)) :
    ∃ s F, sbSetSticks sticks = .ok s ∧
      (∀ grid, conditionalLpdf s.logweights nObjs sticks.length like grid = .ok (grid.map F)) ∧
      ∀ x, IsLogOf (F x) (mixture (stickWeights sticks) dens x) := by
  obtain ⟨lw, h1, h2⟩ := logweights_ok sticks
  have h3 := logweights_exp hv h1
  have hnt : ∀ x ∈ lw, x ≠ ⊤ := by
    unfold logweightsFromSticks at h1
    rw [if_pos le_rfl] at h1
    cases h1
    intro x hx
    obtain ⟨i, -, rfl⟩ := List.mem_map.mp hx
    exact EReal.add_ne_top (stdLog_ne_top _) (cumsum_ne_top _ _)
  obtain ⟨F, hF, hF'⟩ := conditional_mix hnt ho hl
  rw [h3] at hF'
  rw [h2] at hF
  exact ⟨⟨sticks, lw, sticks.length⟩, F, by simp [sbSetSticks, h1, ok_bind], hF, hF'⟩

theorem update_sticks {prior : SBPrior} {s s' : SBState} (hs : SBRun prior false s)
    {cards : List ℕ} {draws : ℕ → ℝ → ℝ → ℝ} (hd : ∀ i a b, 0 ≤ draws i a b ∧ draws i a b ≤ 1)
    (h : sbUpdate s prior false cards draws = .ok s') : ∀ v ∈ s'.sticks, 0 ≤ v ∧ v ≤ 1 := by
  obtain ⟨-, shapes, new, -, h2, h3, -⟩ := sbUpdate_inv hs.inv h
  simp only [Bool.false_eq_true, if_false] at h3
  intro v hv
  rw [h3] at hv
  rcases List.mem_or_eq_of_mem_set hv with hv | rfl
  · obtain ⟨i, _, hi⟩ := mapM_ok_mem h2 v hv
    unfold drawStick at hi
    cases e1 : vget shapes i with
    | error e => rw [e1] at hi; cases hi
    | ok ab =>
      rw [e1, ok_bind] at hi
      cases e2 : vget cards i with
      | error e => rw [e2] at hi; cases hi
      | ok ci =>
        rw [e2, ok_bind] at hi
        unfold betaRng at hi
        split at hi
        · cases hi; exact hd i _ _
        · cases hi
  · exact ⟨zero_le_one, le_refl 1⟩

/-- C84 for a finite mixture with truncated stick-breaking weights: every state saved after an
update of the weights gives an estimate that is a mixture with nonnegative weights that sum to one.
Missing: the infinite case and the logit stick-breaking mixing, where it is false. -/
theorem c84_finite_partial {prior : SBPrior} {s s' : SBState} (hs : SBRun prior false s)
    {cards : List ℕ} {draws : ℕ → ℝ → ℝ → ℝ} (hd : ∀ i a b, 0 ≤ draws i a b ∧ draws i a b ≤ 1)
    (h : sbUpdate s prior false cards draws = .ok s')
    {nObjs : ℕ} (ho : 0 < nObjs) {like : ℕ → X → EReal} {dens : ℕ → X → ℝ}
    (hl : ∀ j x, IsLogOf (like j x) (dens j x)) :
    ∃ s₂ F w, sbSetSticks s'.sticks = .ok s₂ ∧
      (∀ grid, conditionalLpdf s₂.logweights nObjs cards.length like grid = .ok (grid.map F)) ∧
      w.length = cards.length ∧ IsMixtureEstimate F w 0 dens (fun _ => 0) := by
  obtain ⟨h1, h2, h3⟩ := c30_update_finite_sums_to_one hs hd h
  have hst := update_sticks hs hd h
  obtain ⟨s₂, F, h4, h5, h6⟩ := truncated_mix hst ho hl
  have hr : SBRun prior false s' := .update hs h
  have hinv := hr.inv
  obtain ⟨-, -, -, -, -, -, hnum, -, hcards⟩ := sbUpdate_inv hs.inv h
  have hcl : cards.length = s'.sticks.length := by rw [hcards, ← hnum, hinv.1]
  rw [hinv.weights hst] at h2 h3
  refine ⟨s₂, F, stickWeights s'.sticks, h4, by rw [hcl]; exact h5, ?_, h2, le_rfl,
    by rw [h3, add_zero], fun x => by simpa using h6 x⟩
  rw [stickWeights_length, hcl]

/-- C84 fails for the infinite mixture of the slice sampler: if no stick is exactly one, the
estimate is a weighted sum with weights that sum to less than one, and integrates to less than
one. -/
theorem c84_infinite_violated [MeasurableSpace X] {sticks : List ℝ}
    (hv : ∀ v ∈ sticks, 0 ≤ v ∧ v < 1) {nObjs : ℕ} (ho : 0 < nObjs) {like : ℕ → X → EReal}
    {dens : ℕ → X → ℝ} (hl : ∀ j x, IsLogOf (like j x) (dens j x)) {μ : Measure X}
    (hd : ∀ j, Integrable (dens j) μ ∧ ∫ x, dens j x ∂μ = 1) :
    ∃ s F, sbSetSticks sticks = .ok s ∧
      (∀ grid, conditionalLpdf s.logweights nObjs sticks.length like grid = .ok (grid.map F)) ∧
      (∀ x, IsLogOf (F x) (mixture (stickWeights sticks) dens x)) ∧
      ∫ x, stdExp (F x) ∂μ = 1 - (sticks.map fun v => 1 - v).prod ∧
      ∫ x, stdExp (F x) ∂μ < 1 := by
  obtain ⟨s, F, h1, h2, h3⟩ := truncated_mix (fun v h => ⟨(hv v h).1, (hv v h).2.le⟩) ho hl
  have e : (fun x => stdExp (F x)) = mixture (stickWeights sticks) dens :=
    funext fun x => stdExp_of_isLogOf (h3 x)
  have h4 : ∫ x, stdExp (F x) ∂μ = 1 - (sticks.map fun v => 1 - v).prod := by
    rw [e, (mixture_integral fun j _ => hd j).2, stickWeights_sum]
    rfl
  refine ⟨s, F, h1, h2, h3, h4, ?_⟩
  rw [h4]
  have := leftover_pos (fun v h => (hv v h).2)
  unfold leftover at this
  linarith

/-- C84 fails for the logit stick-breaking mixing, for every number of components, regression
coefficients and covariates: the estimate integrates to less than one. -/
theorem c84_logit_violated [MeasurableSpace X] {d num : ℕ} (hn : 0 < num)
    {coefs : List (Fin d → ℝ)} (hc : coefs.length = num - 1) (cov : Fin d → ℝ) {nObjs : ℕ}
    (ho : 0 < nObjs) {like : ℕ → X → EReal} {dens : ℕ → X → ℝ}
    (hl : ∀ j x, IsLogOf (like j x) (dens j x)) {μ : Measure X}
    (hd : ∀ j, Integrable (dens j) μ ∧ ∫ x, dens j x ∂μ = 1) :
    ∃ lw F, logitLogWeights num coefs cov = .ok lw ∧
      (∀ grid, conditionalLpdf lw nObjs num like grid = .ok (grid.map F)) ∧
      ∫ x, stdExp (F x) ∂μ < 1 := by
  obtain ⟨w, h1, h2⟩ := c33_logit_weights_violated hn hc cov
  obtain ⟨w', h1', hlen, -⟩ := c33_logit_weights_partial hn hc cov
  have hww : w' = w := Except.ok.inj (h1'.symm.trans h1)
  subst hww
  cases hlw : logitLogWeights num coefs cov with
  | error e =>
    unfold logitWeights at h1
    rw [hlw] at h1
    cases h1
  | ok lw =>
    have hw : lw.map stdExp = w' := by
      unfold logitWeights at h1
      rw [hlw, ok_bind] at h1
      exact Except.ok.inj h1
    have hnt : ∀ x ∈ lw, x ≠ ⊤ := by
      unfold logitLogWeights at hlw
      split at hlw
      · cases hlw
      · cases hlw
        intro x hx
        obtain ⟨i, -, rfl⟩ := List.mem_map.mp hx
        exact EReal.add_ne_top (stdLog_ne_top _) (logitCumsum_ne_top _ _)
    obtain ⟨F, hF, hF'⟩ := conditional_mix hnt ho hl
    have hnum : lw.length = num := by rw [← hlen, ← hw, List.length_map]
    rw [hnum] at hF
    refine ⟨lw, F, rfl, hF, ?_⟩
    have e : (fun x => stdExp (F x)) = mixture (lw.map stdExp) dens :=
      funext fun x => stdExp_of_isLogOf (hF' x)
    rw [e, (mixture_integral fun j _ => hd j).2, hw]
    exact h2

/-! ## Examples -/

/-- Two-point space with the counting measure; every component puts mass `1/4` and `3/4`. -/
noncomputable def exDens (_ : ℕ) (x : Bool) : ℝ := if x then 1 / 4 else 3 / 4

theorem exDens_log (j : ℕ) (x : Bool) : IsLogOf (stdLog (exDens j x)) (exDens j x) := by
  apply isLogOf_stdLog
  unfold exDens; split <;> norm_num

theorem exDens_one (j : ℕ) :
    Integrable (exDens j) Measure.count ∧ ∫ x, exDens j x ∂Measure.count = 1 := by
  constructor
  · exact Integrable.of_finite
  · rw [integral_fintype Integrable.of_finite]
    simp [exDens]
    norm_num

example : ∃ F, (∀ grid, marginalLpdf dpOps (dpSetState 2) 3 5 [3, 2] (fun j x =>
      stdLog (exDens j x)) (fun x => stdLog (exDens 0 x)) grid = .ok (grid.map F, dpSetState 2)) ∧
    IsMixtureEstimate F [3 / 7, 2 / 7] (2 / 7) exDens (exDens 0) ∧
    ∫ x, stdExp (F x) ∂Measure.count = 1 := by
  obtain ⟨F, h1, h2⟩ := c54_dirichlet (m := 2) (by norm_num) (nObjs := 3) (by norm_num)
    (cards := [3, 2]) (n := 5) rfl exDens_log (exDens_log 0)
  have e : ([3, 2].map fun c : ℕ => (c : ℝ) / ((5 : ℕ) + 2)) = [3 / 7, 2 / 7] := by norm_num
  have e2 : (2 : ℝ) / ((5 : ℕ) + 2) = 2 / 7 := by norm_num
  rw [e, e2] at h2
  exact ⟨F, h1, h2, c54_integrates_to_one h2 (fun j _ => exDens_one j) (exDens_one 0).1
    (exDens_one 0).2⟩

example : ∃ F, (∀ grid, marginalLpdf pyOps ⟨1, 1 / 2⟩ 1 5 [3, 2] (fun j x =>
      stdLog (exDens j x)) (fun x => stdLog (exDens 0 x)) grid =
      .ok (grid.map F, ⟨1, 1 / 2⟩)) ∧
    IsMixtureEstimate F ([3, 2].map fun c : ℕ => ((c : ℝ) - 1 / 2) / ((5 : ℕ) + 1))
      ((1 + 1 / 2 * ([3, 2] : List ℕ).length) / ((5 : ℕ) + 1)) exDens (exDens 0) :=
  c54_pitman_yor (a := 1) (b := 1 / 2) (cards := [3, 2]) (n := 5) (by norm_num [pyInit]) one_pos
    rfl (by norm_num) (by simp) exDens_log (exDens_log 0)

example : ∃ coef : ℕ → ℕ → ℝ, ∃ F ρ s', (∀ grid, marginalLpdf (mfmOps coef) ⟨1, none⟩ 1 5 [3, 2]
      (fun j x => stdLog (exDens j x)) (fun x => stdLog (exDens 0 x)) grid =
        .ok (grid.map F, s')) ∧ 0 < ρ ∧
      IsMixtureEstimate F ([3, 2].map fun c : ℕ => ((c : ℝ) + 1) /
        ((5 : ℕ) + ([3, 2] : List ℕ).length * 1 + ρ))
        (ρ / ((5 : ℕ) + ([3, 2] : List ℕ).length * 1 + ρ)) exDens (exDens 0) := by
  obtain ⟨coef, hc, -⟩ := c28_coefficients_exist (γ := 1) (lam := 2) one_pos two_pos 0
  obtain ⟨F, ρ, s', h1, h2, -, h3⟩ := c54_finite_mixture_partial one_pos two_pos hc (m := 4)
    (n := 5) MFMRun.fresh (nObjs := 1) one_pos (cards := [3, 2]) rfl (by simp) (by simp) (by simp)
    exDens_log (exDens_log 0)
  exact ⟨coef, F, ρ, s', h1, h2, h3⟩

example (x : Bool) : IsLogOf (neal8Marginal 3 (fun j x => stdLog (exDens j x)) x)
    ((∑ j ∈ Finset.range 3, exDens j x) / (3 : ℕ)) :=
  c54_neal8_component (by norm_num) exDens_log x

example : ∃ s₂ F w, sbSetSticks [1 / 2, 1 / 2, 1] = .ok s₂ ∧
    (∀ grid, conditionalLpdf s₂.logweights 3 3 (fun j x => stdLog (exDens j x)) grid =
      .ok (grid.map F)) ∧ w.length = 3 ∧ IsMixtureEstimate F w 0 exDens (fun _ => 0) := by
  obtain ⟨s, s', hs, hu, he⟩ := example_sbUpdate
  have := c84_finite_partial hs (fun _ _ _ => by norm_num) hu (nObjs := 3) (by norm_num)
    exDens_log
  rw [he] at this
  exact this

example : ∃ s F, sbSetSticks [1 / 2, 1 / 3] = .ok s ∧
    (∀ grid, conditionalLpdf s.logweights 2 2 (fun j x => stdLog (exDens j x)) grid =
      .ok (grid.map F)) ∧ ∫ x, stdExp (F x) ∂Measure.count < 1 := by
  obtain ⟨s, F, h1, h2, -, -, h3⟩ := c84_infinite_violated (sticks := [1 / 2, 1 / 3])
    (by intro v hv; simp at hv; rcases hv with rfl | rfl <;> norm_num) (nObjs := 2) (by norm_num)
    exDens_log exDens_one
  exact ⟨s, F, h1, h2, h3⟩

example : ∃ lw F, logitLogWeights 2 [fun _ : Fin 1 => 3] (fun _ => 1) = .ok lw ∧
    (∀ grid, conditionalLpdf lw 1 2 (fun j x => stdLog (exDens j x)) grid = .ok (grid.map F)) ∧
    ∫ x, stdExp (F x) ∂Measure.count < 1 :=
  c84_logit_violated two_pos rfl _ one_pos exDens_log exDens_one

end Bayesmix.Density
