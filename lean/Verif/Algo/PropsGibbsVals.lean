import Verif.Algo.GibbsValsKernel
import Verif.Algo.PropsGibbs
import Mathlib.MeasureTheory.Measure.Lebesgue.Basic
import Mathlib.MeasureTheory.Constructions.BorelSpace.Real

/-!
# C93, C94: the updates of Neal8 and Neal2 leave the joint posterior invariant
-/

namespace Bayesmix.Gibbs
open Bayesmix.SplitMerge Bayesmix.Mixing Bayesmix.Hierarchies MeasureTheory ENNReal

variable {G H Θ : Type} [AddCommGroup G] [MeasurableSpace Θ]

/-! ### Neal8 -/

/-- The `j`-th auxiliary value for a row at place `pl`: the draw `z`, but the row's own value if
`j = 0` and the row is alone. -/
def ownFirst : Place Θ → ℕ → Θ → Θ
  | .inr θ, 0, _ => θ
  | _, _, z => z

/-- The update of row `i` by Neal8 with `m + 1` auxiliary blocks, in state `s`. `s1` is the state
without row `i`, `pl` the place of row `i` in `s`; `ν` is the law of a draw from the prior of the
unique values, `π` the prior probability of the labels. -/
structure Neal8Balanced (E : Env G H Θ) (like : Θ → ℕ → ℝ) (S : Scores H) (n m : ℕ)
    (s : Alg G H Θ) (i : ℕ) (ν : Measure Θ) (π : List ℕ → ℝ) (s1 : Alg G H Θ) (pl : Place Θ) :
    Prop where
  /-- the code takes row `i` out and finds it at `pl` -/
  taken : ∃ o sing, detach E false s i = .ok (s1, o, sing) ∧ placeOf s i o sing = pl
  /-- `s` is `s1` with row `i` at `pl`, up to the names of the labels -/
  current : SameState n s.alloc (labelsAt s1 i pl) (valuesOf s) (valuesAt s1 pl)
  /-- choice `c < K` puts the row into cluster `c` -/
  old : ∀ aux : List (Hier G H Θ), aux.length = m + 1 → ∀ ra : ℕ → ℕ, ∀ c < s1.clus.length,
    ∃ s', neal8Datum E ⟨s, aux⟩ i c ra = .ok s' ∧ PutAt E i s1 s'.base (.inl c)
  /-- choice `K + j` puts it into a new cluster, with the `j`-th draw from the prior; the row's own
  value takes the place of the first draw if the row was alone -/
  new : ∀ aux : List (Hier G H Θ), aux.length = m + 1 → ∀ ra : ℕ → ℕ, ∀ j < m + 1,
    ∃ s', neal8Datum E ⟨s, aux⟩ i (s1.clus.length + j) ra = .ok s' ∧
      PutAt E i s1 s'.base (.inr (ownFirst pl j (E.sample s.hyp (ra j))))
  /-- from the new state the transition of row `i` is described by the same kernel and target -/
  closed : ∀ s' pl', PutAt E i s1 s' pl' → ∃ s1' o sing, detach E false s' i = .ok (s1', o, sing) ∧
    placeOf s' i o sing = pl' ∧
    (∀ φ x, neal8Kernel like S n s1' i ν m φ x = neal8Kernel like S n s1 i ν m φ x) ∧
    ∀ φ, target π like n s1' i ν φ = target π like n s1 i ν φ
  /-- the kernel is a probability -/
  total : ∀ x, neal8Kernel like S n s1 i ν m (fun _ => 1) x = 1
  /-- detailed balance for the joint density -/
  balance : ∀ φ ψ : Place Θ → ℝ≥0∞, (Measurable fun θ => φ (.inr θ)) →
    (Measurable fun θ => ψ (.inr θ)) →
    target π like n s1 i ν (fun x => ψ x * neal8Kernel like S n s1 i ν m φ x) =
      target π like n s1 i ν (fun x => φ x * neal8Kernel like S n s1 i ν m ψ x)
  /-- hence the joint density is invariant -/
  invariant : ∀ φ : Place Θ → ℝ≥0∞, (Measurable fun θ => φ (.inr θ)) →
    target π like n s1 i ν (fun x => neal8Kernel like S n s1 i ν m φ x) = target π like n s1 i ν φ

/-- The joint density in terms of the weights of the places. -/
theorem target_flow {π : List ℕ → ℝ} {like : Θ → ℕ → ℝ} {S : Scores H} {n i : ℕ}
    {s1 : Alg G H Θ} {ν : Measure Θ} {b r : ℝ} (hb : 0 < b) (hr : 0 < r)
    (hlike : Measurable fun θ => like θ i)
    (h1 : ∀ c o, s1.clus[c]? = some o → joint π like n (labelsAt s1 i (.inl c))
      (valuesAt s1 (.inl c)) =
        b * Real.exp (S.exist (n - 1) s1.clus.length o.card + like o.state i))
    (h2 : ∀ θ, joint π like n (labelsAt s1 i (.inr θ)) (valuesAt s1 (.inr θ)) =
      b * r * Real.exp (S.fresh (n - 1) s1.clus.length + like θ i))
    {φ : Place Θ → ℝ≥0∞} (hφ : Measurable fun θ => φ (.inr θ)) :
    target π like n s1 i ν φ = ENNReal.ofReal b *
      (∑ c ∈ Finset.range s1.clus.length, exWeight like S n s1 i c * φ (.inl c) +
        ENNReal.ofReal r * ∫⁻ θ, newWeight like S n s1 i θ * φ (.inr θ) ∂ν) := by
  rw [target, mul_add, Finset.mul_sum]
  congr 1
  · refine Finset.sum_congr rfl fun c hc => ?_
    have ho := List.getElem?_eq_getElem (Finset.mem_range.mp hc)
    rw [h1 c _ ho, exWeight, ho, Option.map_some, Option.getD_some, ENNReal.ofReal_mul hb.le,
      mul_assoc]
  · have hm : Measurable fun θ => newWeight like S n s1 i θ * φ (.inr θ) :=
      (newWeight_measurable hlike).mul hφ
    rw [← mul_assoc, ← lintegral_const_mul _ hm]
    refine lintegral_congr fun θ => ?_
    rw [h2 θ, newWeight, ENNReal.ofReal_mul (by positivity), ENNReal.ofReal_mul hb.le]
    ring

theorem kernel_measurable {like : Θ → ℕ → ℝ} {S : Scores H} {n i : ℕ} {s1 : Alg G H Θ}
    (hlike : Measurable fun θ => like θ i) (ν : Measure Θ) [IsProbabilityMeasure ν] (m : ℕ)
    {φ : Place Θ → ℝ≥0∞} (hφ : Measurable fun θ => φ (.inr θ)) :
    Measurable fun θ => neal8Kernel like S n s1 i ν m φ (.inr θ) := by
  simp only [neal8Kernel, chosen_eq]
  have h1 : Measurable fun a : Fin (m + 1) → Θ =>
      offerSum (exWeight like S n s1 i) s1.clus.length (newWeight like S n s1 i) φ a /
        offerSum (exWeight like S n s1 i) s1.clus.length (newWeight like S n s1 i) (fun _ => 1) a :=
    (offerSum_measurable _ _ (newWeight_measurable hlike) hφ).div
      (offerSum_measurable _ _ (newWeight_measurable hlike) measurable_const)
  have h2 : Measurable fun p : Θ × (Fin m → Θ) => (Fin.cons p.1 p.2 : Fin (m + 1) → Θ) := by
    refine measurable_pi_iff.mpr fun j => ?_
    refine Fin.cases ?_ (fun l => ?_) j
    · simpa using measurable_fst
    · simp only [Fin.cons_succ]
      exact (measurable_pi_apply l).comp measurable_snd
  have h3 : Measurable (Function.uncurry fun (θ : Θ) (a : Fin m → Θ) =>
      offerSum (exWeight like S n s1 i) s1.clus.length (newWeight like S n s1 i) φ
          (Fin.cons θ a : Fin (m + 1) → Θ) /
        offerSum (exWeight like S n s1 i) s1.clus.length (newWeight like S n s1 i) (fun _ => 1)
          (Fin.cons θ a : Fin (m + 1) → Θ)) := h1.comp h2
  exact h3.lintegral_prod_right

/-- The update for prior probabilities of product form. -/
theorem neal8_balanced (E : Env G H Θ) {like : Θ → ℕ → ℝ} (S : Scores H) {n : ℕ} (hn : 2 ≤ n)
    {s : Alg G H Θ} (hs : MarginalOk E.contrib n s) {i : ℕ} (hi : i < n) (m : ℕ)
    (hlike : Measurable fun θ => like θ i) (ν : Measure Θ) [IsProbabilityMeasure ν] :
    ∃ s1 pl, Reduced n i s1.clus.length s1.alloc ∧
      (∀ c o, s1.clus[c]? = some o → o.card = ((others n i s1.alloc c).card : ℤ)) ∧
      (∃ o sing, detach E false s i = .ok (s1, o, sing) ∧ placeOf s i o sing = pl) ∧
      ∀ (π : List ℕ → ℝ) (κ : ℝ) (A B : ℕ → ℝ), 0 < κ → 0 < A s1.clus.length → (∀ c, 0 < B c) →
      (∀ al : List ℕ, al.length = n → π al = κ * prodPost A (sizeW B) al) →
      (1 ≤ s1.clus.length → A (s1.clus.length + 1) * B 1 =
        A s1.clus.length * Real.exp (S.fresh (n - 1) s1.clus.length)) →
      (∀ c : ℕ, 1 ≤ c → B (c + 1) = B c * Real.exp (S.exist (n - 1) s1.clus.length c)) →
      Neal8Balanced E like S n m s i ν π s1 pl := by
  obtain ⟨s1, o, hdet, hR, hh, hca, hd, hcard, -, hcur⟩ := detach_place (canSave_false E) hs hi
  refine ⟨s1, placeOf s i o (decide (o.card ≤ 1)), hR, hcard, ⟨o, _, hdet, rfl⟩, ?_⟩
  intro π κ A B hκ hAp hB0 hπ hA hB
  obtain ⟨b, hb, h1, h2⟩ := joint_places (like := like) (S := S) hR hcard hκ hAp hB0 hπ
    (hA (hR.pos hn)) hB
  have hflow : ∀ φ : Place Θ → ℝ≥0∞, (Measurable fun θ => φ (.inr θ)) →
      target π like n s1 i ν φ = ENNReal.ofReal b * flow like S n s1 i ν φ := by
    intro φ hφ
    rw [target_flow (r := 1) hb one_pos hlike h1 (by simpa using h2) hφ, flow, ENNReal.ofReal_one,
      one_mul]
  have hbal : ∀ φ ψ : Place Θ → ℝ≥0∞, (Measurable fun θ => φ (.inr θ)) →
      (Measurable fun θ => ψ (.inr θ)) →
      target π like n s1 i ν (fun x => ψ x * neal8Kernel like S n s1 i ν m φ x) =
        target π like n s1 i ν (fun x => φ x * neal8Kernel like S n s1 i ν m ψ x) := by
    intro φ ψ hφ hψ
    rw [hflow _ (hψ.mul (kernel_measurable hlike ν m hφ)),
      hflow _ (hφ.mul (kernel_measurable hlike ν m hψ)), flow_reversible S n s1 hlike ν m hφ hψ]
  refine ⟨⟨o, _, hdet, rfl⟩, hcur, ?_, ?_, ?_, fun x => neal8Kernel_one like S n s1 i ν m x, hbal, ?_⟩
  · intro aux haux ra c hc
    obtain ⟨s', e, -, hput⟩ := neal8_moves (s := ⟨s, aux⟩) (by simp only; omega) hi hdet hR hca hd
      (k := c) (by simp only; omega) ra
    refine ⟨s', e, ?_⟩
    rw [placeOfChoice, if_pos hc] at hput
    exact hput
  · intro aux haux ra j hj
    obtain ⟨s', e, -, hput⟩ := neal8_moves (s := ⟨s, aux⟩) (by simp only; omega) hi hdet hR hca hd
      (k := s1.clus.length + j) (by simp only; omega) ra
    refine ⟨s', e, ?_⟩
    rw [placeOfChoice, if_neg (by omega), Nat.add_sub_cancel_left, hh] at hput
    by_cases hcd : o.card ≤ 1
    · cases j with
      | zero => simpa [placeOf, offered, hcd, ownFirst] using hput
      | succ j => simpa [placeOf, offered, hcd, ownFirst] using hput
    · simpa [placeOf, offered, hcd, ownFirst] using hput
  · intro s' pl' hput
    obtain ⟨s1', o', hdet', hc', -, hal', hl', hpl'⟩ := hput.back.back
    exact ⟨s1', o', _, hdet', hpl', fun φ x => neal8Kernel_agree hc' ν m φ x,
      fun φ => target_agree hc' hl' hal' π ν φ⟩
  · intro φ hφ
    have := hbal φ (fun _ => 1) hφ measurable_const
    simp only [one_mul] at this
    rw [this]
    congr 1
    funext x
    rw [neal8Kernel_one, mul_one]

/-- `t` is a state in which Neal8 is about to update row `i`: `zs` are whole iterations after the
initialization; `m` auxiliary blocks. -/
def Reaches8 (E : Env G H Θ) (K n m : ℕ) (h0 : H) (θ0 : Θ) (i : ℕ) (t : Alg8 G H Θ) : Prop :=
  ∃ (zi : InitNoise) (u : Hier G H Θ) (s0 : Alg G H Θ) (aux0 : List (Hier G H Θ)) (s : Alg8 G H Θ)
    (zs : List Noise) (ω : ℕ → ℕ × ℕ) (ra : ℕ → ℕ → ℕ),
    u.saved = false ∧ initAlloc E false K n h0 θ0 zi [u] = .ok s0 ∧ aux0.length = m ∧
    iterate (neal8Step E n) ⟨s0, aux0⟩ zs = .ok s ∧ neal8Allocations E i ω ra s = .ok t

omit [MeasurableSpace Θ] in
theorem reaches8_ok {E : Env G H Θ} {K n m : ℕ} (hm : 0 < m) {h0 : H} {θ0 : Θ} (hK : 0 < K)
    (hKn : K ≤ n) {i : ℕ} (hi : i < n) {t : Alg8 G H Θ} (hr : Reaches8 E K n m h0 θ0 i t) :
    MarginalOk E.contrib n t.base ∧ t.aux.length = m := by
  obtain ⟨zi, u, s0, aux0, s, zs, ω, ra, hu, hinit, haux, hrun, hpre⟩ := hr
  obtain ⟨t0, e0, hm0, -⟩ := initAlloc_ok (E := E) (upd := false) (h0 := h0) (θ0 := θ0)
    zi (o := u) (canSave_false E) hK hKn (by simp [Hier.CacheOk, hu])
  rw [hinit] at e0; cases e0
  obtain ⟨s', e, h1, h2⟩ := foldlM_list_inv (neal8Step E n)
    (fun t => MarginalOk E.contrib n t.base ∧ t.aux.length = m)
    (fun z t ht => by
      obtain ⟨t', e, a, b⟩ := neal8Step_ok z (Nat.lt_of_lt_of_le hK hKn) (by omega) ht.1
      exact ⟨t', e, a, by omega⟩) zs ⟨s0, aux0⟩ ⟨hm0, haux⟩
  have : iterate (neal8Step E n) ⟨s0, aux0⟩ zs = .ok s' := e
  rw [hrun] at this; cases this
  obtain ⟨t', e', h3, h4⟩ := foldlM_range_inv
    (fun s i => neal8Datum E s i (ω i).1 (ra i))
    (fun _ s' => MarginalOk E.contrib n s'.base ∧ s'.aux.length = m) i (by
      rintro j s' hj ⟨h1, h2⟩
      obtain ⟨s'', e, hr, hne, hl⟩ := neal8Datum_ok (ω j).1 (ra j) (by omega) h1 (by omega : j < n)
      exact ⟨s'', e, ⟨hr.cons, hne, hr.caches⟩, by omega⟩) s ⟨h1, h2⟩
  have : neal8Allocations E i ω ra s = .ok t' := e'
  rw [hpre] at this; cases this
  exact ⟨h3, h4⟩

/-- Prior probability of the labels under a Pitman-Yor process. -/
noncomputable def pyPrior (st : PYState) (al : List ℕ) : ℝ :=
  schemeProb (fun n _ c => pyMassExisting st n false c) (fun n k => pyMassNew st n k false) al

/-- Prior probability of the labels under a Dirichlet process with total mass `α`. -/
noncomputable def dpPrior (α : ℝ) (al : List ℕ) : ℝ :=
  schemeProb (fun n _ c => dpMassExisting ⟨α, Real.log α⟩ n false c)
    (fun n _ => dpMassNew ⟨α, Real.log α⟩ n false) al

theorem pyPrior_prod {st : PYState} (hs : -1 < st.strength) {n : ℕ} (hn : 0 < n) (al : List ℕ)
    (hl : al.length = n) :
    pyPrior st al = (pyD st n)⁻¹ * prodPost (pyA st) (sizeW (pyB st)) al := by
  have hne : al ≠ [] := by intro h; simp [h] at hl; omega
  rw [pyPrior, py_scheme_closed st hs hne, prodPost, hl, div_eq_inv_mul, mul_assoc]
  congr 2
  apply Finset.prod_congr rfl
  intro c _
  rw [sizeW, count_eq_card, hl]

theorem dpPrior_eq (α : ℝ) (al : List ℕ) : dpPrior α al = pyPrior ⟨α, 0⟩ al := by
  have := dpPosterior_eq α (fun _ => 0) al
  simpa [dpPosterior, pyPosterior, posterior, dpPrior, pyPrior] using this

theorem dpPrior_prod {α : ℝ} (hα : 0 < α) {n : ℕ} (hn : 0 < n) (al : List ℕ)
    (hl : al.length = n) :
    dpPrior α al = (pyD ⟨α, 0⟩ n)⁻¹ * prodPost (pyA ⟨α, 0⟩) (sizeW (pyB ⟨1, 0⟩)) al := by
  rw [dpPrior_eq, pyPrior_prod (st := ⟨α, 0⟩) (by simp only; linarith) hn al hl]
  rfl

theorem py_fresh (pred : H → ℕ → ℝ) {a b : ℝ} (p1 : -b < a) (p2 : 0 ≤ b) (n : ℕ) {K : ℕ}
    (h1 : 1 ≤ K) : pyA ⟨a, b⟩ (K + 1) * pyB ⟨a, b⟩ 1 =
      pyA ⟨a, b⟩ K * Real.exp ((pyScores pred ⟨a, b⟩).fresh n K) := by
  have hpos : 0 < a + b * K := by
    have : (1 : ℝ) ≤ K := by exact_mod_cast h1
    nlinarith
  have e : (pyScores pred ⟨a, b⟩).fresh n K = Real.log (a + b * K) := by
    simp [pyScores, pyLogMassNew, stdLog, hpos.ne']
  rw [pyA_succ ⟨a, b⟩ h1, e, Real.exp_log hpos]
  simp [pyB]

theorem py_exist (pred : H → ℕ → ℝ) {a b : ℝ} (p3 : b < 1) (n K : ℕ) {c : ℕ} (hc : 1 ≤ c) :
    pyB ⟨a, b⟩ (c + 1) = pyB ⟨a, b⟩ c * Real.exp ((pyScores pred ⟨a, b⟩).exist n K c) := by
  have h1 : (1 : ℝ) ≤ c := by exact_mod_cast hc
  have hc0 : c ≠ 0 := by omega
  have hpos : 0 < (c : ℝ) - b := by linarith
  have e : (pyScores pred ⟨a, b⟩).exist n K c = Real.log ((c : ℝ) - b) := by
    simp [pyScores, pyLogMassExisting, stdLog, hpos.ne', hc0]
  rw [pyB_succ ⟨a, b⟩ hc, e, Real.exp_log hpos]

theorem dp_fresh (pred : H → ℕ → ℝ) {prior : DPPrior} {dp : DPState} (hdp : DPRun prior dp)
    (n K : ℕ) : (dpScores pred dp).fresh n K = 0 := by
  simp [dpScores, (c26_dirichlet_log_mass_violated hdp n).1]

theorem dp_exist (pred : H → ℕ → ℝ) (dp : DPState) (n K : ℕ) {c : ℕ} (hc : 1 ≤ c) :
    pyB ⟨1, 0⟩ (c + 1) = pyB ⟨1, 0⟩ c * Real.exp ((dpScores pred dp).exist n K c) := by
  have hc0 : c ≠ 0 := by omega
  have hcp : (0 : ℝ) < c := by exact_mod_cast hc
  have e : (dpScores pred dp).exist n K c = Real.log c := by
    simp [dpScores, dpLogMassExisting, logCard, hc0]
  rw [pyB_succ ⟨1, 0⟩ hc, e, Real.exp_log hcp]
  simp

/-- **C93, Pitman-Yor process.** Neal8 with at least one auxiliary block and any hierarchy whose
prior draws have law `ν h`, in every state that a run can be in when row `i` is about to be updated:
the transition of the place of row `i` (its cluster, or a cluster of its own with a value) is
reversible for the joint density of labels, unique values and data, hence leaves it invariant. -/
theorem c93_neal8_pitman_yor (E : Env G H Θ) (like : Θ → ℕ → ℝ)
    (hlike : ∀ i, Measurable fun θ => like θ i) (ν : H → Measure Θ)
    [∀ h, IsProbabilityMeasure (ν h)] (pred : H → ℕ → ℝ) {a b : ℝ} {py : PYState}
    (hpy : pyInit a b = .ok py) (K n m : ℕ) (hn : 2 ≤ n) (hK : 0 < K) (hKn : K ≤ n) (h0 : H)
    (θ0 : Θ) (i : ℕ) (hi : i < n) (s : Alg8 G H Θ) (hs : Reaches8 E K n (m + 1) h0 θ0 i s) :
    ∃ s1 pl, Neal8Balanced E like (pyScores pred py) n m s.base i (ν s.base.hyp) (pyPrior py) s1 pl := by
  obtain ⟨hs, -⟩ := reaches8_ok (Nat.succ_pos m) hK hKn hi hs
  obtain ⟨rfl, p1, p2, p3⟩ := pyInit_ok hpy
  have hst : -1 < a := by linarith
  obtain ⟨s1, pl, -, -, -, hall⟩ := neal8_balanced E (pyScores pred ⟨a, b⟩) hn hs hi m (hlike i)
    (ν s.base.hyp)
  exact ⟨s1, pl, hall _ (pyD ⟨a, b⟩ n)⁻¹ (pyA ⟨a, b⟩) (pyB ⟨a, b⟩)
    (inv_pos.mpr (pyD_pos hst n)) (pyA_pos p1 p2 _) (fun c => pyB_pos p3 c)
    (pyPrior_prod hst (by omega)) (fun h1 => py_fresh pred p1 p2 _ h1)
    (fun c hc => py_exist pred p3 _ _ hc)⟩

/-- **C93, Dirichlet process, what the code targets.** With a Dirichlet process mixing whose state
was initialized and updated by the code, the update is reversible for the joint density with total
mass **one**. -/
theorem c93_neal8_dirichlet_partial (E : Env G H Θ) (like : Θ → ℕ → ℝ)
    (hlike : ∀ i, Measurable fun θ => like θ i) (ν : H → Measure Θ)
    [∀ h, IsProbabilityMeasure (ν h)] (pred : H → ℕ → ℝ) {prior : DPPrior} {dp : DPState}
    (hdp : DPRun prior dp) (K n m : ℕ) (hn : 2 ≤ n) (hK : 0 < K) (hKn : K ≤ n) (h0 : H)
    (θ0 : Θ) (i : ℕ) (hi : i < n) (s : Alg8 G H Θ) (hs : Reaches8 E K n (m + 1) h0 θ0 i s) :
    ∃ s1 pl, Neal8Balanced E like (dpScores pred dp) n m s.base i (ν s.base.hyp) (dpPrior 1) s1 pl := by
  obtain ⟨hs, -⟩ := reaches8_ok (Nat.succ_pos m) hK hKn hi hs
  obtain ⟨s1, pl, -, -, -, hall⟩ := neal8_balanced E (dpScores pred dp) hn hs hi m (hlike i)
    (ν s.base.hyp)
  refine ⟨s1, pl, hall _ (pyD ⟨1, 0⟩ n)⁻¹ (pyA ⟨1, 0⟩) (pyB ⟨1, 0⟩)
    (inv_pos.mpr (pyD_pos (by norm_num) n)) (pyA_pos (by norm_num) le_rfl _)
    (fun c => pyB_pos one_pos c) (dpPrior_prod one_pos (by omega)) (fun h1 => ?_)
    (fun c hc => dp_exist pred dp _ _ hc)⟩
  rw [dp_fresh pred hdp, pyA_succ ⟨1, 0⟩ h1]
  simp [pyB]

/-- **C93, Dirichlet process, violation.** For every configured total mass other than one, in every
reachable state and for every row, the update does not leave the joint density of the configured
model invariant. -/
theorem c93_neal8_dirichlet_violated (E : Env G H Θ) (like : Θ → ℕ → ℝ)
    (hlike : ∀ i, Measurable fun θ => like θ i) (ν : H → Measure Θ)
    [∀ h, IsProbabilityMeasure (ν h)] (pred : H → ℕ → ℝ) {prior : DPPrior} {dp : DPState}
    (hdp : DPRun prior dp) (hmass : dp.totalmass ≠ 1) (K n m : ℕ) (hn : 2 ≤ n) (hK : 0 < K)
    (hKn : K ≤ n) (h0 : H) (θ0 : Θ) (i : ℕ) (hi : i < n) (s : Alg8 G H Θ)
    (hs : Reaches8 E K n (m + 1) h0 θ0 i s) :
    ∃ s1 o sing, detach E false s.base i = .ok (s1, o, sing) ∧
      ∃ φ : Place Θ → ℝ≥0∞, (Measurable fun θ => φ (.inr θ)) ∧
        target (dpPrior dp.totalmass) like n s1 i (ν s.base.hyp)
            (fun x => neal8Kernel like (dpScores pred dp) n s1 i (ν s.base.hyp) m φ x) ≠
          target (dpPrior dp.totalmass) like n s1 i (ν s.base.hyp) φ := by
  obtain ⟨hs, -⟩ := reaches8_ok (Nat.succ_pos m) hK hKn hi hs
  obtain ⟨s1, o, hdet, hR, hh, hca, hd, hcard, -, hcur⟩ := detach_place (canSave_false E) hs hi
  refine ⟨s1, o, _, hdet, Sum.elim (fun _ => 1) (fun _ => 0), by simp, ?_⟩
  have hα := hdp.pos.1
  obtain ⟨α, hαd⟩ : ∃ α, α = dp.totalmass := ⟨_, rfl⟩
  rw [← hαd] at hα hmass ⊢
  -- weights of the places under the configured model
  obtain ⟨b, hb, h1, h2⟩ := joint_places (π := dpPrior α) (like := like)
    (S := { dpScores pred dp with fresh := fun _ _ => Real.log α }) hR hcard
    (κ := (pyD ⟨α, 0⟩ n)⁻¹) (A := pyA ⟨α, 0⟩) (B := pyB ⟨1, 0⟩)
    (inv_pos.mpr (pyD_pos (by simp only; linarith) n))
    (pyA_pos (by simpa using hα) le_rfl _) (fun c => pyB_pos one_pos c)
    (dpPrior_prod hα (by omega))
    (by
      have := pyA_succ ⟨α, 0⟩ (hR.pos hn)
      simp only [zero_mul, add_zero] at this
      rw [this, Real.exp_log hα]
      simp [pyB])
    (fun c hc => dp_exist pred dp (n - 1) s1.clus.length hc)
  have h2' : ∀ θ, joint (dpPrior α) like n (labelsAt s1 i (.inr θ)) (valuesAt s1 (.inr θ)) =
      b * α * Real.exp ((dpScores pred dp).fresh (n - 1) s1.clus.length + like θ i) := by
    intro θ
    rw [h2 θ, dp_fresh pred hdp, Real.exp_add, Real.exp_log hα, zero_add, mul_assoc]
  obtain ⟨φ, hφd⟩ : ∃ φ : Place Θ → ℝ≥0∞, φ = Sum.elim (fun _ => 1) (fun _ => 0) := ⟨_, rfl⟩
  obtain ⟨ψ, hψd⟩ : ∃ ψ : Place Θ → ℝ≥0∞, ψ = Sum.elim (fun _ => 0) (fun _ => 1) := ⟨_, rfl⟩
  have hφ : Measurable fun θ => φ (.inr θ) := by rw [hφd]; simp
  have hψ : Measurable fun θ => ψ (.inr θ) := by rw [hψd]; simp
  rw [← hφd]
  obtain ⟨Kφ, hKφ⟩ : ∃ Kφ, Kφ = neal8Kernel like (dpScores pred dp) n s1 i (ν s.base.hyp) m φ :=
    ⟨_, rfl⟩
  obtain ⟨Kψ, hKψ⟩ : ∃ Kψ, Kψ = neal8Kernel like (dpScores pred dp) n s1 i (ν s.base.hyp) m ψ :=
    ⟨_, rfl⟩
  rw [← hKφ]
  have hrev := flow_reversible (dpScores pred dp) n s1 (hlike i) (ν s.base.hyp) m hφ hψ
  rw [← hKφ, ← hKψ] at hrev
  obtain ⟨W, hW⟩ : ∃ W, W = ∑ c ∈ Finset.range s1.clus.length,
      exWeight like (dpScores pred dp) n s1 i c := ⟨_, rfl⟩
  have hWtop : W ≠ ∞ := by
    rw [hW]
    refine ENNReal.sum_ne_top.mpr fun c _ => ?_
    rw [exWeight]
    cases s1.clus[c]? with
    | none => exact ENNReal.zero_ne_top
    | some o => exact ENNReal.ofReal_ne_top
  have hW0 : W ≠ 0 := by
    intro h
    rw [hW] at h
    have h3 := (Finset.sum_eq_zero_iff.mp h) 0 (Finset.mem_range.mpr (hR.pos hn))
    rw [exWeight, List.getElem?_eq_getElem (hR.pos hn), Option.map_some, Option.getD_some] at h3
    exact (ENNReal.ofReal_pos.mpr (Real.exp_pos _)).ne' h3
  -- from a shared cluster
  obtain ⟨q, hq⟩ : ∃ q, q = Kψ (.inl 0) := ⟨_, rfl⟩
  obtain ⟨k, hk⟩ : ∃ k, k = Kφ (.inl 0) := ⟨_, rfl⟩
  have hqc : ∀ c, Kψ (.inl c) = q := by intro c; rw [hq, hKψ]; rfl
  have hkc : ∀ c, Kφ (.inl c) = k := by intro c; rw [hk, hKφ]; rfl
  have hsum : k + q = 1 := by
    rw [hk, hq, hKφ, hKψ, ← neal8Kernel_one like (dpScores pred dp) n s1 i (ν s.base.hyp) m (.inl 0)]
    simp only [neal8Kernel]
    rw [← lintegral_add_left]
    · refine lintegral_congr fun a => ?_
      simp only [chosen, hφd, hψd, Sum.elim_inl, Sum.elim_inr, mul_one, mul_zero,
        Finset.sum_const_zero, add_zero, zero_add]
    · simp only [chosen_eq]
      exact (offerSum_measurable _ _ (newWeight_measurable (hlike i)) hφ).div
        (offerSum_measurable _ _ (newWeight_measurable (hlike i)) measurable_const)
  have hqpos : q ≠ 0 := by
    rw [hq, hKψ]
    simp only [neal8Kernel, chosen_eq]
    have hm : Measurable fun a : Fin (m + 1) → Θ =>
        offerSum (exWeight like (dpScores pred dp) n s1 i) s1.clus.length
            (newWeight like (dpScores pred dp) n s1 i) ψ a /
          offerSum (exWeight like (dpScores pred dp) n s1 i) s1.clus.length
            (newWeight like (dpScores pred dp) n s1 i) (fun _ => 1) a :=
      (offerSum_measurable _ _ (newWeight_measurable (hlike i)) hψ).div
        (offerSum_measurable _ _ (newWeight_measurable (hlike i)) measurable_const)
    intro h
    rw [lintegral_eq_zero_iff hm] at h
    have hall : ∀ a : Fin (m + 1) → Θ,
        offerSum (exWeight like (dpScores pred dp) n s1 i) s1.clus.length
            (newWeight like (dpScores pred dp) n s1 i) ψ a /
          offerSum (exWeight like (dpScores pred dp) n s1 i) s1.clus.length
            (newWeight like (dpScores pred dp) n s1 i) (fun _ => 1) a ≠ 0 := by
      intro a h0
      obtain ⟨-, ht⟩ := offerSum_one_ne (like := like) (S := dpScores pred dp) (n := n) (s1 := s1)
        (i := i) a
      rcases ENNReal.div_eq_zero_iff.mp h0 with h0 | h0
      · rw [offerSum] at h0
        have h3 := (Finset.sum_eq_zero_iff.mp (add_eq_zero.mp h0).2) 0 (Finset.mem_univ _)
        rw [hψd] at h3
        simp only [Sum.elim_inr, mul_one] at h3
        rcases mul_eq_zero.mp h3 with h4 | h4
        · exact (ENNReal.ofReal_pos.mpr (Real.exp_pos _)).ne' h4
        · exact ENNReal.inv_ne_zero.mpr (ENNReal.natCast_ne_top _) h4
      · exact ht h0
    have := h.exists
    obtain ⟨a, ha⟩ := this
    exact hall a ha
  have hI : ∫⁻ θ, newWeight like (dpScores pred dp) n s1 i θ * Kφ (.inr θ) ∂(ν s.base.hyp) = W * q := by
    have e := hrev
    simp only [flow, hφd, hψd, Sum.elim_inl, Sum.elim_inr, zero_mul, one_mul, mul_zero,
      Finset.sum_const_zero, zero_add, lintegral_zero, add_zero] at e
    rw [e, hW, Finset.sum_mul]
    exact Finset.sum_congr rfl fun c _ => by rw [hqc]
  have hKm : Measurable fun θ => Kφ (.inr θ) := by
    rw [hKφ]; exact kernel_measurable (hlike i) _ m hφ
  rw [target_flow (S := dpScores pred dp) hb hα (hlike i) h1 h2' hKm,
    target_flow (S := dpScores pred dp) hb hα (hlike i) h1 h2' hφ, hI]
  have e1 : ∑ c ∈ Finset.range s1.clus.length, exWeight like (dpScores pred dp) n s1 i c * Kφ (.inl c) =
      W * k := by
    rw [hW, Finset.sum_mul]
    exact Finset.sum_congr rfl fun c _ => by rw [hkc]
  have e2 : ∑ c ∈ Finset.range s1.clus.length, exWeight like (dpScores pred dp) n s1 i c * φ (.inl c) =
      W := by
    rw [hW, hφd]; simp
  have e3 : ∫⁻ θ, newWeight like (dpScores pred dp) n s1 i θ * φ (.inr θ) ∂(ν s.base.hyp) = 0 := by
    rw [hφd]; simp
  change ENNReal.ofReal b * (∑ c ∈ Finset.range s1.clus.length,
      exWeight like (dpScores pred dp) n s1 i c * Kφ (.inl c) + ENNReal.ofReal α * (W * q)) ≠
    ENNReal.ofReal b * (∑ c ∈ Finset.range s1.clus.length,
      exWeight like (dpScores pred dp) n s1 i c * φ (.inl c) + ENNReal.ofReal α *
        ∫⁻ θ, newWeight like (dpScores pred dp) n s1 i θ * φ (.inr θ) ∂(ν s.base.hyp))
  rw [e1, e2, e3, mul_zero, add_zero]
  intro h
  have h' := (ENNReal.mul_right_inj (ENNReal.ofReal_pos.mpr hb).ne' ENNReal.ofReal_ne_top).mp h
  have h'' : W * (k + ENNReal.ofReal α * q) = W * (k + q) := by
    rw [hsum, mul_one]
    calc W * (k + ENNReal.ofReal α * q) = W * k + ENNReal.ofReal α * (W * q) := by ring
      _ = W := h'
  have h3 := (ENNReal.mul_right_inj hW0 hWtop).mp h''
  have hktop : k ≠ ∞ := by
    intro h; rw [h, top_add] at hsum; exact ENNReal.top_ne_one hsum
  have hqtop : q ≠ ∞ := by
    intro h; rw [h, add_top] at hsum; exact ENNReal.top_ne_one hsum
  have h4 := (ENNReal.add_right_inj hktop).mp h3
  have h5 : ENNReal.ofReal α = 1 := by
    have : ENNReal.ofReal α * q = 1 * q := by rw [h4, one_mul]
    exact (ENNReal.mul_left_inj hqpos hqtop).mp this
  rw [ENNReal.ofReal_eq_one] at h5
  exact hmass h5

/-- A small non-conjugate model with real unique values, for the examples. -/
noncomputable def toyVals : Env ℝ ℝ ℝ :=
  ⟨.other, fun i => i, fun h _ _ => h, fun h r => h + 1 / (r + 1),
    fun θ _ _ _ _ r => θ + r, fun h _ _ => h⟩

theorem reaches8_example (zi : InitNoise) (u : Hier ℝ ℝ ℝ) (hu : u.saved = false) :
    ∃ s, Reaches8 toyVals 2 3 2 0 0 0 s ∧ s.base.alloc.length = 3 := by
  obtain ⟨s, e, hs, -⟩ := initAlloc_ok (E := toyVals) (upd := false) (K := 2) (n := 3) (h0 := 0)
    (θ0 := 0) zi (o := u) (canSave_false _) (by omega) (by omega) (by simp [Hier.CacheOk, hu])
  exact ⟨⟨s, [u, u]⟩, ⟨zi, u, s, [u, u], ⟨s, [u, u]⟩, [], fun _ => (0, 0), fun _ _ => 0, hu, e, rfl,
    rfl, rfl⟩, hs.cons.len⟩

instance : IsProbabilityMeasure (volume.restrict (Set.Icc (0 : ℝ) 1)) :=
  ⟨by simp⟩

/-- Non-vacuity of the Neal8 theorems: three rows, two auxiliary blocks, normal likelihood, uniform
prior of the unique values. -/
example (zi : InitNoise) (u : Hier ℝ ℝ ℝ) (hu : u.saved = false) (y : ℕ → ℝ) :
    ∃ s s1 pl, Reaches8 toyVals 2 3 2 0 0 0 s ∧
      Neal8Balanced toyVals (fun θ i => -(θ - y i) ^ 2 / 2)
        (pyScores (fun _ _ => 0) ⟨1, 1 / 2⟩) 3 1 s.base 0 (volume.restrict (Set.Icc (0 : ℝ) 1))
        (pyPrior ⟨1, 1 / 2⟩) s1 pl := by
  obtain ⟨s, hs, -⟩ := reaches8_example zi u hu
  obtain ⟨s1, pl, h⟩ := c93_neal8_pitman_yor toyVals (fun θ i => -(θ - y i) ^ 2 / 2)
    (fun i => by fun_prop) (fun _ => volume.restrict (Set.Icc (0 : ℝ) 1)) (fun _ _ => 0)
    (a := 1) (b := 1 / 2) (py := ⟨1, 1 / 2⟩) (by norm_num [pyInit]) 2 3 1 (by omega) (by omega)
    (by omega) 0 0 0 (by omega) s hs
  exact ⟨s, s1, pl, hs, h⟩

example (zi : InitNoise) (u : Hier ℝ ℝ ℝ) (hu : u.saved = false) (y : ℕ → ℝ) :
    ∃ s s1 pl, Reaches8 toyVals 2 3 2 0 0 0 s ∧
      Neal8Balanced toyVals (fun θ i => -(θ - y i) ^ 2 / 2)
        (dpScores (fun _ _ => 0) ⟨2, 0⟩) 3 1 s.base 0 (volume.restrict (Set.Icc (0 : ℝ) 1))
        (dpPrior 1) s1 pl := by
  obtain ⟨s, hs, -⟩ := reaches8_example zi u hu
  obtain ⟨s1, pl, h⟩ := c93_neal8_dirichlet_partial toyVals (fun θ i => -(θ - y i) ^ 2 / 2)
    (fun i => by fun_prop) (fun _ => volume.restrict (Set.Icc (0 : ℝ) 1)) (fun _ _ => 0)
    (prior := .fixed 2) (dp := ⟨2, 0⟩) (.init (by norm_num [dpInit, dpFresh])) 2 3 1 (by omega)
    (by omega) (by omega) 0 0 0 (by omega) s hs
  exact ⟨s, s1, pl, hs, h⟩

example (zi : InitNoise) (u : Hier ℝ ℝ ℝ) (hu : u.saved = false) (y : ℕ → ℝ) :
    ∃ s, ∃ s1 : Alg ℝ ℝ ℝ, Reaches8 toyVals 2 3 2 0 0 0 s ∧ ∃ φ : Place ℝ → ℝ≥0∞,
      target (dpPrior 2) (fun θ i => -(θ - y i) ^ 2 / 2) 3 s1 0
          (volume.restrict (Set.Icc (0 : ℝ) 1))
          (fun x => neal8Kernel (fun θ i => -(θ - y i) ^ 2 / 2) (dpScores (fun _ _ => 0) ⟨2, 0⟩) 3
            s1 0 (volume.restrict (Set.Icc (0 : ℝ) 1)) 1 φ x) ≠
        target (dpPrior 2) (fun θ i => -(θ - y i) ^ 2 / 2) 3 s1 0
          (volume.restrict (Set.Icc (0 : ℝ) 1)) φ := by
  obtain ⟨s, hs, -⟩ := reaches8_example zi u hu
  obtain ⟨s1, o, sing, -, φ, -, h⟩ := c93_neal8_dirichlet_violated toyVals
    (fun θ i => -(θ - y i) ^ 2 / 2)
    (fun i => by fun_prop) (fun _ => volume.restrict (Set.Icc (0 : ℝ) 1)) (fun _ _ => 0)
    (prior := .fixed 2) (dp := ⟨2, 0⟩) (.init (by norm_num [dpInit, dpFresh])) (by norm_num) 2 3 1
    (by omega) (by omega) (by omega) 0 0 0 (by omega) s hs
  exact ⟨s, s1, hs, φ, h⟩

end Bayesmix.Gibbs
