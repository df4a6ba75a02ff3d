import Verif.Mixing.Accept
import Verif.Utils.Lemmas
import Mathlib.LinearAlgebra.Matrix.PosDef

/-! # C144: which parameters the mixings accept -/

namespace Bayesmix

open Mixing Hierarchies

/-! ### Statements -/

/-- `ex n k c` and `nw n k` are the predictive probabilities of a random partition: with `n` data
in `k` clusters, that of a cluster of size `c` and that of a new one. They are positive and sum to
one, whatever the sizes of the clusters. -/
def Predictive (ex : ℕ → ℕ → ℕ → ℝ) (nw : ℕ → ℕ → ℝ) : Prop :=
  ∀ cards : List ℕ, cards ≠ [] → (∀ c ∈ cards, 0 < c) →
    (∀ c ∈ cards, 0 < ex cards.sum cards.length c) ∧ 0 < nw cards.sum cards.length ∧
      (cards.map (ex cards.sum cards.length)).sum + nw cards.sum cards.length = 1

theorem sum_map_div (l : List ℕ) (f : ℕ → ℝ) (d : ℝ) :
    (l.map fun c => f c / d).sum = (l.map f).sum / d := by
  induction l with
  | nil => simp
  | cons a t ih => simp [ih, add_div]

theorem sum_map_sub_const (l : List ℕ) (b : ℝ) :
    (l.map fun c : ℕ => (c : ℝ) - b).sum = (l.sum : ℕ) - l.length * b := by
  induction l with
  | nil => simp
  | cons a t ih => simp [ih]; ring

/-- **C144, Dirichlet process with a fixed total mass.** It is accepted exactly if the predictive
probabilities with that total mass are probabilities, and it is then the total mass of the
object. -/
theorem c144_dirichlet (s0 : DPState) (m : ℝ) :
    ((∃ s, baseInit (dpInit s0) (some (.fixed m)) = .ok s) ↔
      Predictive (fun n _ c => c / (n + m)) (fun n _ => m / (n + m))) ∧
    (∀ s, baseInit (dpInit s0) (some (.fixed m)) = .ok s → s.totalmass = m) ∧
    baseInit (dpInit s0) none = .error .throw ∧
    baseInit (dpInit s0) (some .other) = .error .throw := by
  refine ⟨⟨?_, ?_⟩, ?_, rfl, rfl⟩
  · rintro ⟨s, h⟩
    have hm : 0 < m := by
      by_contra hc
      simp [baseInit, dpInit, not_lt.mp hc] at h
    intro cards hne hpos
    have hd : 0 < ((cards.sum : ℕ) : ℝ) + m := by positivity
    refine ⟨fun c hc => ?_, by positivity, ?_⟩
    · have : (0 : ℝ) < c := by exact_mod_cast hpos c hc
      positivity
    · have := sum_map_div cards (fun c => (c : ℝ)) ((cards.sum : ℕ) + m)
      rw [this, ← add_div]
      have h2 := sum_map_sub_const cards 0
      simp only [sub_zero, mul_zero] at h2
      rw [h2, div_self hd.ne']
  · intro h
    have hm : ¬ m ≤ 0 := by
      intro hm
      obtain ⟨n, hn⟩ := exists_nat_gt (-m)
      have h2 := (h [n + 1] (by simp) (by simp)).2.1
      simp only [List.sum_cons, List.sum_nil, add_zero, Nat.cast_add, Nat.cast_one] at h2
      have hd : (0 : ℝ) < n + 1 + m := by linarith
      rw [lt_div_iff₀ hd] at h2
      linarith
    exact ⟨{ s0 with totalmass := m }, by simp [baseInit, dpInit, hm]⟩
  · intro s h
    simp only [baseInit, dpInit] at h
    split at h
    · cases h
    · cases h; rfl

/-- **C144, Dirichlet process with a Gamma prior.** The prior is accepted exactly if its shape and
its rate are positive, and the total mass starts at its mean. -/
theorem c144_dirichlet_gamma (s0 : DPState) (a b : ℝ) :
    ((∃ s, baseInit (dpInit s0) (some (.gamma a b)) = .ok s) ↔ 0 < a ∧ 0 < b) ∧
    (∀ s, baseInit (dpInit s0) (some (.gamma a b)) = .ok s → s.totalmass * b = a) := by
  refine ⟨⟨?_, ?_⟩, ?_⟩
  · rintro ⟨s, h⟩
    simp only [baseInit, dpInit] at h
    split at h
    · cases h
    · split at h
      · cases h
      · rename_i h1 h2; exact ⟨not_le.mp h1, not_le.mp h2⟩
  · rintro ⟨h1, h2⟩
    exact ⟨{ s0 with totalmass := a / b }, by simp [baseInit, dpInit, not_le.mpr h1, not_le.mpr h2]⟩
  · intro s h
    simp only [baseInit, dpInit] at h
    split at h
    · cases h
    · split at h
      · cases h
      · rename_i h1 h2
        cases h
        have : b ≠ 0 := (not_le.mp h2).ne'
        simp [this]

/-- **C144, Pitman-Yor process.** Strength and discount are accepted exactly if the predictive
probabilities with them are probabilities. -/
theorem c144_pitman_yor (a b : ℝ) :
    ((∃ s, baseInit pyInitPrior (some (.fixed a b)) = .ok s) ↔
      Predictive (fun n _ c => (c - b) / (n + a)) (fun n k => (a + k * b) / (n + a))) ∧
    (∀ s, baseInit pyInitPrior (some (.fixed a b)) = .ok s → s = ⟨a, b⟩) ∧
    baseInit pyInitPrior none = .error .throw ∧
    baseInit pyInitPrior (some .other) = .error .throw := by
  refine ⟨⟨?_, ?_⟩, fun s h => (pyInit_ok h).1, rfl, rfl⟩
  · rintro ⟨s, h⟩
    obtain ⟨-, h1, h2, h3⟩ := pyInit_ok h
    intro cards hne hpos
    have hl : (1 : ℝ) ≤ cards.length := by
      exact_mod_cast List.length_pos_iff.mpr hne
    have hs : (1 : ℝ) ≤ (cards.sum : ℕ) := by
      obtain ⟨c, t, rfl⟩ := List.exists_cons_of_ne_nil hne
      have := hpos c (by simp)
      exact_mod_cast (by simp only [List.sum_cons]; omega : 1 ≤ (c :: t).sum)
    have hd : 0 < ((cards.sum : ℕ) : ℝ) + a := by linarith
    refine ⟨fun c hc => ?_, div_pos (by nlinarith) hd, ?_⟩
    · have : (1 : ℝ) ≤ c := by exact_mod_cast hpos c hc
      exact div_pos (by linarith) hd
    · rw [sum_map_div cards (fun c => (c : ℝ) - b), sum_map_sub_const, ← add_div]
      rw [show ((cards.sum : ℕ) : ℝ) - cards.length * b + (a + cards.length * b) =
        (cards.sum : ℕ) + a by ring, div_self hd.ne']
  · intro h
    obtain ⟨n, hn⟩ := exists_nat_gt (-a)
    -- one large cluster: the mass of a new one
    have h1 := (h [n + 1] (by simp) (by simp)).2.1
    simp only [List.sum_cons, List.sum_nil, add_zero, Nat.cast_add, Nat.cast_one,
      List.length_singleton, one_mul] at h1
    rw [lt_div_iff₀ (by linarith : (0 : ℝ) < n + 1 + a)] at h1
    have hab : -b < a := by linarith
    -- two clusters, one of them with one datum
    have h2 := (h [1, n + 1] (by simp) (by simp)).1 1 (by simp)
    simp only [List.sum_cons, List.sum_nil, add_zero, Nat.cast_add, Nat.cast_one] at h2
    rw [lt_div_iff₀ (by linarith : (0 : ℝ) < 1 + (n + 1) + a)] at h2
    have hb1 : b < 1 := by linarith
    -- many clusters
    have hb0 : 0 ≤ b := by
      by_contra hb
      push Not at hb
      obtain ⟨k, hk⟩ := exists_nat_gt (a / -b)
      have h3 := (h (List.replicate (k + n + 1) 1) (by simp) (by simp)).2.1
      simp only [List.sum_replicate, smul_eq_mul, mul_one, List.length_replicate, Nat.cast_add,
        Nat.cast_one] at h3
      have hk0 : (0 : ℝ) ≤ k := by positivity
      have hn0 : (0 : ℝ) ≤ n := by positivity
      rw [lt_div_iff₀ (by linarith : (0 : ℝ) < k + n + 1 + a)] at h3
      rw [div_lt_iff₀ (by linarith)] at hk
      nlinarith
    refine ⟨⟨a, b⟩, ?_⟩
    simp only [baseInit, pyInitPrior, pyInit]
    rw [if_neg (by linarith), if_neg (by push Not; exact ⟨hb0, hb1⟩)]

/-- **C144, mixture of finite mixtures.** The Poisson mean and the Dirichlet parameter are accepted
exactly if both are positive; the object has them then, and updates of the mixing leave it alone. -/
theorem c144_finite_mixture (o : MFMObj) (l g : ℝ) :
    ((∃ o', baseInit (mfmInit o) (some (.fixed l g)) = .ok o') ↔ 0 < l ∧ 0 < g) ∧
    (∀ o', baseInit (mfmInit o) (some (.fixed l g)) = .ok o' →
      o'.lambda = l ∧ o'.gamma = g ∧ mfmUpdate o' (.fixed l g) = .ok o') ∧
    baseInit (mfmInit o) none = .error .throw ∧
    baseInit (mfmInit o) (some .other) = .error .throw := by
  refine ⟨⟨?_, ?_⟩, ?_, rfl, rfl⟩
  · rintro ⟨s, h⟩
    simp only [baseInit, mfmInit] at h
    split at h
    · cases h
    · split at h
      · cases h
      · rename_i h1 h2; exact ⟨not_le.mp h1, not_le.mp h2⟩
  · rintro ⟨h1, h2⟩
    exact ⟨{ o with lambda := l, gamma := g }, by
      simp [baseInit, mfmInit, not_le.mpr h1, not_le.mpr h2]⟩
  · intro s h
    simp only [baseInit, mfmInit] at h
    split at h
    · cases h
    · split at h
      · cases h
      · cases h; exact ⟨rfl, rfl, rfl⟩

/-- The priors of a truncated stick-breaking process with `num` components all of whose sticks have
a Beta distribution. -/
def ValidSticks (num : ℕ) : SBPrior → Prop
  | .betas l => 0 < num ∧ l.length = num ∧ ∀ ab ∈ l, 0 < ab.1 ∧ 0 < ab.2
  | .dp m => 0 < num ∧ 0 < m
  | .py a b => 0 < num ∧ 0 ≤ b ∧ b < 1 ∧ 0 < a
  | .other => False

/-- **C144, truncated stick-breaking, in part.** All valid priors are accepted.

Missing (`c144_truncated_violated`): others are accepted too. -/
theorem c144_truncated_partial (prior : SBPrior) (num : ℕ) (h : ValidSticks num prior) :
    ∃ s, baseInit (fun p => sbInit p num) (some prior) = .ok s ∧ s.num = num ∧
      s.sticks.length = num ∧ ∀ v ∈ s.sticks, 0 < v ∧ v < 1 := by
  have hc : sbCheck prior num = .ok () := by
    cases prior with
    | betas l =>
      obtain ⟨-, hl, hp⟩ := h
      simp only [sbCheck]
      rw [if_neg (by simpa using hl), if_neg]
      simp only [List.any_eq_true, decide_eq_true_eq, not_exists, not_and]
      intro ab hab
      have := hp ab (List.mem_of_mem_take hab)
      push Not
      exact this
    | dp m => simp only [sbCheck]; rw [if_neg (not_le.mpr h.2)]
    | py a b =>
      obtain ⟨-, h1, h2, h3⟩ := h
      simp only [sbCheck]
      rw [if_neg (by linarith), if_neg (by push Not; exact ⟨h1, h2⟩)]
    | other => exact h.elim
  have hps : ∀ i < num, ∃ ab : ℝ × ℝ, betaParams prior num i = .ok ab ∧ 0 < ab.1 ∧ 0 < ab.2 := by
    intro i hi
    cases prior with
    | betas l =>
      obtain ⟨-, hl, hp⟩ := h
      have hil : i < l.length := by omega
      exact ⟨l[i], by
        simp only [betaParams]
        rw [if_neg (by omega), vget_ok (List.getElem?_eq_getElem hil)], hp _ (List.getElem_mem hil)⟩
    | dp m => exact ⟨_, rfl, by norm_num, h.2⟩
    | py a b =>
      obtain ⟨-, h1, h2, h3⟩ := h
      exact ⟨_, rfl, by simp only; linarith, by simp only; positivity⟩
    | other => exact h.elim
  obtain ⟨shapes, es⟩ := mapM_all_ok (f := betaParams prior num) (l := List.range num)
    (fun i hi => ⟨_, (hps i (List.mem_range.mp hi)).choose_spec.1⟩)
  have hlen : shapes.length = num := by simpa using mapM_ok_length es
  have hv : ∀ ab ∈ shapes, 0 < ab.1 ∧ 0 < ab.2 := by
    intro ab hab
    obtain ⟨i, hi, e⟩ := mapM_ok_mem es ab hab
    obtain ⟨ab', e', h'⟩ := hps i (List.mem_range.mp hi)
    rw [e] at e'; rw [Except.ok.inj e']; exact h'
  have es' : priorShapes prior num = .ok shapes := es
  refine ⟨⟨shapes.map fun ab => ab.1 / (ab.1 + ab.2),
    (List.range num).map fun h => stdLog ((shapes.map fun ab => ab.1 / (ab.1 + ab.2)).getD h 0) +
      cumsum (shapes.map fun ab => ab.1 / (ab.1 + ab.2)) h, num⟩, ?_, rfl, by simpa using hlen, ?_⟩
  · simp only [baseInit, sbInit, hc, ok_bind, es', logweightsFromSticks, List.length_map, hlen,
      le_refl, if_true]
  · intro v hv'
    obtain ⟨ab, hab, rfl⟩ := List.mem_map.mp hv'
    obtain ⟨h1, h2⟩ := hv ab hab
    exact ⟨by positivity, by rw [div_lt_one (by linarith)]; linarith⟩

/-- **C144 is violated by the truncated stick-breaking mixing.** It accepts: no components; a last
Beta distribution with any shapes, with which an update that finds the last component empty
throws; a strength of the Pitman-Yor process that is zero or negative, with which an update that
finds all data in the first component throws. -/
theorem c144_truncated_violated :
    (∀ m : ℝ, 0 < m → ∃ s, baseInit (fun p => sbInit p 0) (some (.dp m)) = .ok s ∧
      s.sticks = []) ∧
    (∀ (l : List (ℝ × ℝ)) (ab : ℝ × ℝ), (∀ x ∈ l, 0 < x.1 ∧ 0 < x.2) → (ab.1 ≤ 0 ∨ ab.2 ≤ 0) →
      ∃ s, baseInit (fun p => sbInit p (l.length + 1)) (some (.betas (l ++ [ab]))) = .ok s ∧
        ∀ (inf : Bool) (cards : List ℕ) (draws : ℕ → ℝ → ℝ → ℝ), cards.length = l.length →
          sbUpdate s (.betas (l ++ [ab])) inf (cards ++ [0]) draws = .error .throw) ∧
    (∀ a b : ℝ, -b < a → a ≤ 0 → b < 1 → ∀ num,
      ∃ s, baseInit (fun p => sbInit p (num + 1)) (some (.py a b)) = .ok s ∧
        ∀ (inf : Bool) (c : ℕ) (draws : ℕ → ℝ → ℝ → ℝ),
          sbUpdate s (.py a b) inf (c :: List.replicate num 0) draws = .error .throw) := by
  refine ⟨?_, ?_, ?_⟩
  · intro m hm
    exact ⟨⟨[], [], 0⟩, by
      simp [baseInit, sbInit, sbCheck, not_le.mpr hm, priorShapes, logweightsFromSticks], rfl⟩
  · intro l ab hl hab
    have hc : sbCheck (.betas (l ++ [ab])) (l.length + 1) = .ok () := by
      simp only [sbCheck]
      rw [if_neg (by simp), if_neg]
      simp only [List.any_eq_true, decide_eq_true_eq, not_exists, not_and, Nat.add_sub_cancel,
        List.take_left]
      intro x hx
      push Not
      exact hl x hx
    have hps : ∀ i (hi : i < l.length + 1), betaParams (.betas (l ++ [ab])) (l.length + 1) i =
        .ok ((l ++ [ab])[i]'(by simpa using hi)) := by
      intro i hi
      simp only [betaParams]
      rw [if_neg (by omega), vget_ok (List.getElem?_eq_getElem _)]
    have es : priorShapes (.betas (l ++ [ab])) (l.length + 1) = .ok (l ++ [ab]) := by
      obtain ⟨sh, e⟩ := mapM_all_ok (f := betaParams (.betas (l ++ [ab])) (l.length + 1))
        (l := List.range (l.length + 1)) (fun i hi => ⟨_, hps i (List.mem_range.mp hi)⟩)
      have hlen : sh.length = l.length + 1 := by simpa using mapM_ok_length e
      have : sh = l ++ [ab] := by
        apply List.ext_getElem (by simpa using hlen)
        intro i h1 h2
        obtain ⟨x, x1, x2⟩ := mapM_getElem? e i (by simp; omega)
        rw [List.getElem_range, hps i (by omega)] at x2
        rw [List.getElem?_eq_getElem h1] at x1
        rw [Option.some.inj x1, ← Except.ok.inj x2]
      have e' : priorShapes (.betas (l ++ [ab])) (l.length + 1) = .ok sh := e
      rw [this] at e'
      exact e'
    obtain ⟨lw, elw⟩ : ∃ lw, logweightsFromSticks (l.length + 1)
        ((l ++ [ab]).map fun ab => ab.1 / (ab.1 + ab.2)) = .ok lw := by
      unfold logweightsFromSticks
      rw [if_pos (by simp)]
      exact ⟨_, rfl⟩
    refine ⟨⟨(l ++ [ab]).map fun ab => ab.1 / (ab.1 + ab.2), lw, l.length + 1⟩, ?_, ?_⟩
    · simp only [baseInit, sbInit, hc, ok_bind, es, elw]
    · intro inf cards draws hcl
      unfold sbUpdate
      rw [if_neg (by simp [hcl])]
      simp only [es, ok_bind]
      have hd : drawStick (l ++ [ab]) (cards ++ [0]) draws l.length = .error .throw := by
        unfold drawStick
        rw [vget_ok (show (l ++ [ab])[l.length]? = some ab by simp), ok_bind,
          vget_ok (show (cards ++ [0])[l.length]? = some 0 by simp [← hcl]), ok_bind, betaRng,
          if_neg]
        simp only [← hcl]
        rintro ⟨h1, h2⟩
        simp at h1 h2
        rcases hab with h | h <;> linarith
      have hm : (List.range (l.length + 1)).mapM (drawStick (l ++ [ab]) (cards ++ [0]) draws) =
          .error .throw := by
        refine Utils.mapM_error_of _ _ _ ?_ l.length (by simp) hd
        intro i hi
        have hi' : i < l.length + 1 := List.mem_range.mp hi
        unfold drawStick
        rw [vget_ok (List.getElem?_eq_getElem (by simpa using hi')), ok_bind,
          vget_ok (List.getElem?_eq_getElem (by simpa [hcl] using hi')), ok_bind, betaRng]
        split
        · exact .inl ⟨_, rfl⟩
        · exact .inr rfl
      rw [hm]
      rfl
  · intro a b h1 h2 h3 num
    have hb : 0 ≤ b := by linarith
    have es := Utils.mapM_ok_of (betaParams (.py a b) (num + 1)) (fun i : ℕ => (1 - b, a + i * b))
      (List.range (num + 1)) (fun i _ => rfl)
    have es' : priorShapes (.py a b) (num + 1) = .ok _ := es
    obtain ⟨lw, elw⟩ : ∃ lw, logweightsFromSticks (num + 1)
        (((List.range (num + 1)).map fun i : ℕ => (1 - b, a + i * b)).map
          fun ab => ab.1 / (ab.1 + ab.2)) = .ok lw := by
      unfold logweightsFromSticks
      rw [if_pos (by simp)]
      exact ⟨_, rfl⟩
    refine ⟨⟨((List.range (num + 1)).map fun i : ℕ => (1 - b, a + i * b)).map
      fun ab => ab.1 / (ab.1 + ab.2), lw, num + 1⟩, ?_, fun inf c draws => ?_⟩
    · simp only [baseInit, sbInit, sbCheck]
      rw [if_neg (by linarith), if_neg (by push Not; exact ⟨hb, h3⟩)]
      simp only [ok_bind, es', elw]
    · unfold sbUpdate
      rw [if_neg (by simp)]
      simp only [es', ok_bind]
      rw [Utils.mapM_error_of _ .throw _ ?_ 0 (by simp) ?_]
      · rfl
      · intro i hi
        have hi' : i < num + 1 := List.mem_range.mp hi
        unfold drawStick
        rw [vget_ok (List.getElem?_eq_getElem (by simpa using hi')), ok_bind,
          vget_ok (List.getElem?_eq_getElem (by simpa using hi')), ok_bind, betaRng]
        split
        · exact .inl ⟨_, rfl⟩
        · exact .inr rfl
      · unfold drawStick
        rw [vget_ok (show ((List.range (num + 1)).map fun i : ℕ => (1 - b, a + i * b))[0]? =
            some (1 - b, a) by simp [List.range_succ_eq_map]), ok_bind,
          vget_ok (show (c :: List.replicate num 0)[0]? = some c by simp), ok_bind, betaRng,
          if_neg]
        rintro ⟨-, h⟩
        simp at h
        linarith

theorem inverseSpdAny_square {d : ℕ} (m : Matrix (Fin d) (Fin d) ℝ) :
    inverseSpdAny m = inverseSpd m := by
  unfold inverseSpdAny
  rw [dif_pos rfl]
  rfl

/-- The parameters of the logit stick-breaking mixing: a normal distribution of the coefficients
and a positive step. -/
structure ValidLogit (p : LogSBPrior) (q : CoefPrior) : Prop where
  given : p.coef = some q
  rows : q.rows = q.dim
  cols : q.cols = q.dim
  posDef : (Matrix.of fun i j : Fin q.dim =>
    q.var (Fin.cast rows.symm i) (Fin.cast cols.symm j)).PosDef
  step : 0 < p.step

/-- **C144, logit stick-breaking, in part.** With `num` components, one at least and `2^31` at
most, the parameters are accepted exactly if they are valid; there are then `num - 1` vectors of
coefficients, all at the prior mean, and the precision is the inverse of the prior variance.

Missing (`c144_logit_violated`): with no components nothing is rejected before the loop over the
coefficients. -/
theorem c144_logit_partial (p : LogSBPrior) (hn : 0 < p.num) (hn2 : p.num ≤ 2 ^ 31) :
    ((∃ s, baseInit logitInit (some p) = .ok s) ↔ ∃ q, ValidLogit p q) ∧
    ((¬ ∃ q, ValidLogit p q) → baseInit logitInit (some p) = .error .throw) ∧
    (∀ d (s : LogitInit d), baseInit logitInit (some p) = .ok ⟨d, s⟩ →
      s.num = p.num ∧ s.rates = p.num - 1 ∧ s.coeffs.length = p.num - 1 ∧
      ∀ q, p.coef = some q → q.dim = d ∧ q.rows = d ∧ q.cols = d ∧
        (∀ (h : q.dim = d), ∀ c ∈ s.coeffs, ∀ i : Fin q.dim, c (Fin.cast h i) = q.mean i) ∧
        ∀ (h : q.rows = d) (h' : q.cols = d), s.precision *
          (Matrix.of fun i j : Fin d => q.var (Fin.cast h.symm i) (Fin.cast h'.symm j)) = 1) := by
  have hmo : minusOne p.num = p.num - 1 := by unfold minusOne; omega
  have hsm : ¬ 2 ^ 31 ≤ minusOne p.num := by rw [hmo]; omega
  obtain ⟨coef, step, num⟩ := p
  simp only at hn hn2 hmo hsm
  cases coef with
  | none =>
    refine ⟨⟨?_, ?_⟩, fun _ => rfl, ?_⟩
    · rintro ⟨s, h⟩; cases h
    · rintro ⟨q, h⟩; cases h.given
    · intro d s h; cases h
  | some q =>
    obtain ⟨dim, mean, rows, cols, var⟩ := q
    by_cases hr : rows = cols
    swap
    · have he : baseInit logitInit (some ⟨some ⟨dim, mean, rows, cols, var⟩, step, num⟩) =
          .error .throw := by
        simp only [baseInit, logitInit, inverseSpdAny, dif_neg hr]; rfl
      refine ⟨⟨?_, ?_⟩, fun _ => he, ?_⟩
      · rintro ⟨s, h⟩; rw [he] at h; cases h
      · rintro ⟨q, h⟩
        have := Option.some.inj h.given
        subst this
        exact absurd (h.rows.trans h.cols.symm) hr
      · intro d s h; rw [he] at h; cases h
    · subst hr
      by_cases hd : dim = rows
      swap
      · have he : baseInit logitInit (some ⟨some ⟨dim, mean, rows, rows, var⟩, step, num⟩) =
            .error .throw := by
          simp only [baseInit, logitInit, inverseSpdAny, dif_neg hd, inverseSpd]
          split
          · split <;> rfl
          · rfl
        refine ⟨⟨?_, ?_⟩, fun _ => he, ?_⟩
        · rintro ⟨s, h⟩; rw [he] at h; cases h
        · rintro ⟨q, h⟩
          have := Option.some.inj h.given
          subst this
          exact absurd h.rows.symm hd
        · intro d s h; rw [he] at h; cases h
      · subst hd
        by_cases hv : var.PosDef ∧ 0 < step
        · obtain ⟨hv, hs⟩ := hv
          have he : baseInit logitInit (some ⟨some ⟨dim, mean, dim, dim, var⟩, step, num⟩) =
              .ok ⟨dim, num, minusOne num, List.replicate (minusOne num) mean, var⁻¹⟩ := by
            simp only [baseInit, logitInit, inverseSpdAny_square, dif_pos, inverseSpd, if_pos hv,
              ok_bind, if_neg (not_le.mpr hs), if_neg hsm]
            rfl
          have hval : ValidLogit ⟨some ⟨dim, mean, dim, dim, var⟩, step, num⟩
              ⟨dim, mean, dim, dim, var⟩ := ⟨rfl, rfl, rfl, hv, hs⟩
          refine ⟨⟨fun _ => ⟨_, hval⟩, fun _ => ⟨_, he⟩⟩, fun h => absurd ⟨_, hval⟩ h, ?_⟩
          intro d s h
          rw [he] at h
          cases h
          refine ⟨rfl, hmo, by simpa using hmo, ?_⟩
          intro q hq
          cases hq
          refine ⟨rfl, rfl, rfl, ?_, ?_⟩
          · intro _ c hc i
            simp only [List.mem_replicate] at hc
            have := hc.2
            exact congrFun this i
          · intro _ _
            exact Matrix.nonsing_inv_mul _ ((Matrix.isUnit_iff_isUnit_det _).mp hv.isUnit)
        · have he : baseInit logitInit (some ⟨some ⟨dim, mean, dim, dim, var⟩, step, num⟩) =
              .error .throw := by
            by_cases hv' : var.PosDef
            · have hs : step ≤ 0 := not_lt.mp fun h => hv ⟨hv', h⟩
              simp only [baseInit, logitInit, inverseSpdAny_square, dif_pos, inverseSpd, if_pos hv',
                ok_bind, if_pos hs]
            · simp only [baseInit, logitInit, inverseSpdAny_square, dif_pos, inverseSpd, if_neg hv']
              rfl
          refine ⟨⟨?_, ?_⟩, fun _ => he, ?_⟩
          · rintro ⟨s, h⟩; rw [he] at h; cases h
          · rintro ⟨q, h⟩
            have := Option.some.inj h.given
            subst this
            exact absurd ⟨h.posDef, h.step⟩ hv
          · intro d s h; rw [he] at h; cases h

/-- **C144 is violated by the logit stick-breaking mixing.** No components, which is what a prior
file without that field says, are not rejected: `num_components - 1` wraps around and the loop over
the coefficients runs into signed overflow, after asking for `2^32 - 1` acceptance rates. -/
theorem c144_logit_violated (p : LogSBPrior) (hn : p.num = 0) (q : CoefPrior)
    (h : ValidLogit p q) : minusOne p.num = 2 ^ 32 - 1 ∧
      baseInit logitInit (some p) = .error .ub := by
  obtain ⟨coef, step, num⟩ := p
  simp only at hn
  subst hn
  refine ⟨by unfold minusOne; norm_num, ?_⟩
  obtain ⟨dim, mean, rows, cols, var⟩ := q
  obtain ⟨h1, h2, h3, h4, h5⟩ := h
  simp only at h1 h2 h3 h4 h5
  subst h2 h1
  subst h3
  have hv : var.PosDef := h4
  simp only [baseInit, logitInit, inverseSpdAny_square, dif_pos, inverseSpd, if_pos hv,
    ok_bind, if_neg (not_le.mpr h5)]
  rw [if_pos (by unfold minusOne; norm_num)]

/-! ### Examples -/

example : (∃ s, baseInit (dpInit ⟨3, 0⟩) (some (.fixed 2)) = .ok s) ∧
    ¬ ∃ s, baseInit (dpInit ⟨3, 0⟩) (some (.fixed (-1 / 2))) = .ok s := by
  constructor
  · exact ⟨⟨2, 0⟩, by simp [baseInit, dpInit]⟩
  · rw [(c144_dirichlet ⟨3, 0⟩ (-1 / 2)).1]
    intro h
    have := (h [1] (by simp) (by simp)).2.1
    norm_num at this

example : ∃ s, baseInit (dpInit ⟨3, 0⟩) (some (.gamma 4 2)) = .ok s ∧ s.totalmass = 2 := by
  obtain ⟨s, h⟩ := (c144_dirichlet_gamma ⟨3, 0⟩ 4 2).1.mpr (by norm_num)
  exact ⟨s, h, by have := (c144_dirichlet_gamma ⟨3, 0⟩ 4 2).2 s h; linarith⟩

example : baseInit pyInitPrior (some (.fixed (-1 / 4) (1 / 2))) = .ok ⟨-1 / 4, 1 / 2⟩ := by
  simp only [baseInit, pyInitPrior, pyInit]; norm_num

example : Predictive (fun n _ c => ((c : ℝ) - 1 / 2) / (n + (-1 / 4)))
    (fun n k => (-1 / 4 + k * (1 / 2)) / (n + (-1 / 4))) :=
  (c144_pitman_yor (-1 / 4) (1 / 2)).1.mp ⟨⟨-1 / 4, 1 / 2⟩, by
    simp only [baseInit, pyInitPrior, pyInit]; norm_num⟩

example (o : MFMObj) : (∃ o', baseInit (mfmInit o) (some (.fixed 5 1)) = .ok o') ∧
    ¬ ∃ o', baseInit (mfmInit o) (some (.fixed 0 1)) = .ok o' :=
  ⟨(c144_finite_mixture o 5 1).1.mpr (by norm_num),
    fun h => absurd ((c144_finite_mixture o 0 1).1.mp h) (by norm_num)⟩

example : ∃ s, baseInit (fun p => sbInit p 2) (some (.betas [(1, 2), (3, 1)])) = .ok s ∧
    s.num = 2 ∧ s.sticks.length = 2 ∧ ∀ v ∈ s.sticks, 0 < v ∧ v < 1 :=
  c144_truncated_partial _ 2 ⟨by norm_num, rfl, by simp⟩

example : ∃ s, baseInit (fun p => sbInit p 2) (some (.betas [(1, 2), (-1, 0)])) = .ok s ∧
    ∀ draws, sbUpdate s (.betas [(1, 2), (-1, 0)]) false [7, 0] draws = .error .throw := by
  obtain ⟨s, h1, h2⟩ := c144_truncated_violated.2.1 [(1, 2)] (-1, 0) (by simp) (by simp)
  exact ⟨s, h1, fun draws => h2 false [7] draws rfl⟩

theorem validLogit_ex (num : ℕ) : ValidLogit
    ⟨some ⟨2, fun _ => 0, 2, 2, 1⟩, 1 / 10, num⟩ ⟨2, fun _ => 0, 2, 2, 1⟩ :=
  ⟨rfl, rfl, rfl, by exact Matrix.PosDef.one, by norm_num⟩

example : ∃ s, baseInit logitInit (some ⟨some ⟨2, fun _ => 0, 2, 2, 1⟩, 1 / 10, 4⟩) = .ok s :=
  (c144_logit_partial _ (by norm_num) (by norm_num)).1.mpr ⟨_, validLogit_ex 4⟩

example : baseInit logitInit (some ⟨some ⟨2, fun _ => 0, 2, 2, 1⟩, 1 / 10, 0⟩) = .error .ub :=
  (c144_logit_violated _ rfl _ (validLogit_ex 0)).2

end Bayesmix
