import Verif.Algo.PropsNeal3Multi
import Verif.Hier.PropsNwLaw

/-!
# C94: Neal2 with the multivariate Normal hierarchy
-/

namespace Bayesmix.Gibbs
open Bayesmix.SplitMerge Bayesmix.Mixing Bayesmix.Hierarchies MeasureTheory ENNReal

variable {G H Θ : Type} [AddCommGroup G] [MeasurableSpace Θ]

/-- **C94, a necessary condition.** If the update of row `i` by Neal2 is the conditional distribution
under the Pitman-Yor mixture with likelihood `like`, then the predictive density that is used for a
new cluster is the integral of the likelihood. -/
theorem c94_neal2_marginal (E : Env G H Θ) (like : Θ → ℕ → ℝ)
    (hlike : ∀ i, Measurable fun θ => like θ i) (ν : H → Measure Θ) (pred : H → ℕ → ℝ) {a b : ℝ}
    {py : PYState} (hpy : pyInit a b = .ok py) (K n : ℕ) (hn : 2 ≤ n) (hK : 0 < K) (hKn : K ≤ n)
    (h0 : H) (θ0 : Θ) (i : ℕ) (hi : i < n) (s : Alg G H Θ) (hs : Reaches2 E K n h0 θ0 i s)
    (s1 : Alg G H Θ) (pl : Place Θ) (p : List ℝ)
    (hc : Neal2Conditional E like (pyScores pred py) n s i ν (pyPrior py) s1 pl p) :
    ∫⁻ θ, ENNReal.ofReal (Real.exp (like θ i)) ∂(ν s.hyp) =
      ENNReal.ofReal (Real.exp (pred s.hyp i)) := by
  have hs := (reaches2_ok hn hK hKn hi hs (P := fun _ => True) trivial fun _ _ _ _ => trivial).1
  obtain ⟨rfl, p1, p2, p3⟩ := pyInit_ok hpy
  have hst : -1 < a := by linarith
  obtain ⟨S, hS⟩ : ∃ S : Scores H, S = pyScores pred ⟨a, b⟩ := ⟨_, rfl⟩
  have hSp : S.pred = pred := by rw [hS]; rfl
  rw [← hS] at hc
  obtain ⟨t1, o, hdet, hR, hh, -, -, hcard, -, -⟩ := detach_place (canSave_false E) hs hi
  obtain ⟨o', sing', hdet', -⟩ := hc.taken
  rw [hdet] at hdet'
  have et : t1 = s1 := (Prod.mk.inj (Except.ok.inj hdet')).1
  subst et
  have hpos := hR.pos hn
  obtain ⟨q, hq, -, -, -, T, hT, hTsum, hpc, -⟩ :=
    neal2Probas_eq (like := like) (S := S) (n := n) (i := i) hpos
  have ep : q = p := Except.ok.inj (hq.symm.trans hc.computed)
  subst ep
  obtain ⟨b', hb, h1, h2⟩ := joint_places (π := pyPrior ⟨a, b⟩) (like := like) (S := S) hR hcard
    (κ := (pyD ⟨a, b⟩ n)⁻¹) (A := pyA ⟨a, b⟩) (B := pyB ⟨a, b⟩)
    (inv_pos.mpr (pyD_pos hst n)) (pyA_pos p1 p2 _) (fun c => pyB_pos p3 c)
    (pyPrior_prod hst (by omega)) (by rw [hS]; exact py_fresh pred p1 p2 _ hpos)
    (by rw [hS]; exact fun c hc => py_exist pred p3 _ _ hc)
  obtain ⟨W, hW⟩ : ∃ W, W = ∑ c ∈ Finset.range t1.clus.length, exWeight like S n t1 i c := ⟨_, rfl⟩
  have hex : ∀ c < t1.clus.length, exWeight like S n t1 i c ≠ 0 ∧ exWeight like S n t1 i c ≠ ∞ := by
    intro c hc
    rw [exWeight, List.getElem?_eq_getElem hc, Option.map_some, Option.getD_some]
    exact ⟨(ENNReal.ofReal_pos.mpr (Real.exp_pos _)).ne', ENNReal.ofReal_ne_top⟩
  have hWtop : W ≠ ∞ := by
    rw [hW]
    exact ENNReal.sum_ne_top.mpr fun c hc => (hex c (Finset.mem_range.mp hc)).2
  have hW0 : W ≠ 0 := by
    intro h
    rw [hW] at h
    exact (hex 0 hpos).1 ((Finset.sum_eq_zero_iff.mp h) 0 (Finset.mem_range.mpr hpos))
  obtain ⟨I, hI⟩ : ∃ I, I = ∫⁻ θ, newWeight like S n t1 i θ ∂(ν s.hyp) := ⟨_, rfl⟩
  obtain ⟨w, hw⟩ : ∃ w, w = ENNReal.ofReal (Real.exp (S.fresh (n - 1) t1.clus.length +
    S.pred t1.hyp i)) := ⟨_, rfl⟩
  rw [← hW, ← hw] at hTsum
  obtain ⟨φ, hφd⟩ : ∃ φ : Place Θ → ℝ≥0∞, φ = Sum.elim (fun _ => 1) (fun _ => 0) := ⟨_, rfl⟩
  have hφ : Measurable fun θ => φ (.inr θ) := by rw [hφd]; simp
  have hm1 : Measurable fun _ : Θ => (1 : ℝ≥0∞) := measurable_const
  obtain ⟨k, hkd⟩ : ∃ k, k = neal2Kernel t1.clus.length q (ν (E.post s.hyp 1 (E.contrib i))) φ :=
    ⟨_, rfl⟩
  have e1 := hc.cond φ hφ
  have e2 : k * ENNReal.ofReal T = W := by
    rw [hkd, neal2Kernel, hφd, hW]
    simp only [Sum.elim_inl, Sum.elim_inr, mul_one, lintegral_zero, mul_zero, add_zero]
    rw [Finset.sum_mul]
    exact Finset.sum_congr rfl fun c hc => hpc c (Finset.mem_range.mp hc)
  have e4 : target (pyPrior ⟨a, b⟩) like n t1 i (ν s.hyp) φ = ENNReal.ofReal b' * W := by
    rw [target_flow (r := 1) hb one_pos (hlike i) h1 (by simpa using h2) hφ, hφd, hW]; simp
  have e5 : target (pyPrior ⟨a, b⟩) like n t1 i (ν s.hyp) (fun _ => 1) =
      ENNReal.ofReal b' * (W + I) := by
    rw [target_flow (r := 1) hb one_pos (hlike i) h1 (by simpa using h2) (φ := fun _ => 1) hm1,
      hW, hI]
    simp
  rw [← hkd, e4, e5] at e1
  rw [hTsum] at e2
  have hb0 : ENNReal.ofReal b' ≠ 0 := (ENNReal.ofReal_pos.mpr hb).ne'
  have e6 : k * (W + I) = W := by
    refine (ENNReal.mul_right_inj hb0 ENNReal.ofReal_ne_top).mp ?_
    rw [← e1]; ring
  have hk0 : k ≠ 0 := by
    rintro rfl
    rw [zero_mul] at e2
    exact hW0 e2.symm
  have hktop : k ≠ ∞ := by
    rintro rfl
    rw [ENNReal.top_mul (by simp [hW0])] at e2
    exact hWtop e2.symm
  have e7 : W + I = W + w := (ENNReal.mul_right_inj hk0 hktop).mp (e6.trans e2.symm)
  have e8 := (ENNReal.add_right_inj hWtop).mp e7
  have e : ∀ θ, newWeight like S n t1 i θ =
      ENNReal.ofReal (Real.exp (S.fresh (n - 1) t1.clus.length)) *
        ENNReal.ofReal (Real.exp (like θ i)) := by
    intro θ
    rw [newWeight, Real.exp_add, ENNReal.ofReal_mul (Real.exp_pos _).le]
  rw [hI, lintegral_congr e, lintegral_const_mul' _ _ ENNReal.ofReal_ne_top, hw, Real.exp_add,
    ENNReal.ofReal_mul (Real.exp_pos _).le, hh, hSp] at e8
  exact (ENNReal.mul_right_inj (ENNReal.ofReal_pos.mpr (Real.exp_pos _)).ne'
    ENNReal.ofReal_ne_top).mp e8

/-- **C94, multivariate Normal hierarchy, violation.** In dimension two, for every accepted prior with
fixed hyperparameters, in every state that a run of Neal2 can be in when it is about to update a row
equal to the mean of the prior: the update is not the conditional distribution under the Pitman-Yor
mixture with the likelihood that the library evaluates. -/
theorem c94_neal2_nnw_violated (y : ℕ → Fin 2 → ℝ) (draw : NW 2 → ℕ → MultiLS 2)
    (prior : NWPrior 2) (h0 : NW 2) (hp : nwInit prior = .ok h0) {a b : ℝ} {py : PYState}
    (hpy : pyInit a b = .ok py) (K n : ℕ) (hn : 2 ≤ n) (hK : 0 < K) (hKn : K ≤ n) (θ0 : MultiLS 2)
    (i : ℕ) (hi : i < n) (hy : y i = h0.mean)
    (s : Alg ((Fin 2 → ℝ) × Matrix (Fin 2) (Fin 2) ℝ) (NW 2) (MultiLS 2))
    (hs : Reaches2 (Chain.nnwEnv y draw fun h _ _ => h) K n h0 θ0 i s) :
    ¬ ∃ s1 pl p, Neal2Conditional (Chain.nnwEnv y draw fun h _ _ => h)
      (fun st i => multiNormLpdf st (y i))
      (pyScores (fun h i => nnwMargLpdf (nwGetProto h) (y i)) py) n s i nwLaw (pyPrior py) s1 pl p := by
  rintro ⟨s1, pl, p, hc⟩
  have he := c94_neal2_marginal _ (fun st i => multiNormLpdf st (y i))
    (fun i => measurable_multiNormLpdf (y i)) nwLaw _ hpy K n hn hK hKn h0 θ0 i hi s hs s1 pl p hc
  have hh : s.hyp = h0 := (reaches2_ok hn hK hKn hi hs (P := fun h => h = h0) rfl
    fun _ _ _ h => h).2
  have hlt := c96_nnw_violated prior h0 hp
  rw [hh, hy] at he
  exact absurd he hlt.ne

/-- Three rows, the first equal to the mean of the prior, two clusters at the start. -/
example (y : ℕ → Fin 2 → ℝ) (hy : y 0 = ![1, 0]) (draw : NW 2 → ℕ → MultiLS 2) (θ0 : MultiLS 2)
    (zi : InitNoise)
    (o : Hier ((Fin 2 → ℝ) × Matrix (Fin 2) (Fin 2) ℝ) (NW 2) (MultiLS 2)) (ho : o.saved = false) :
    ∃ s, Reaches2 (Chain.nnwEnv y draw fun h _ _ => h) 2 3 exNW θ0 0 s ∧
      ¬ ∃ s1 pl p, Neal2Conditional (Chain.nnwEnv y draw fun h _ _ => h)
        (fun st i => multiNormLpdf st (y i))
        (pyScores (fun h i => nnwMargLpdf (nwGetProto h) (y i)) ⟨1, 1 / 2⟩) 3 s 0 nwLaw
        (pyPrior ⟨1, 1 / 2⟩) s1 pl p := by
  obtain ⟨s, e, hs, -⟩ := initAlloc_ok (E := Chain.nnwEnv y draw (fun h _ _ => h)) (upd := false)
    (K := 2) (n := 3) (h0 := exNW) (θ0 := θ0) zi (o := o) (canSave_false _) (by omega)
    (by omega) (by simp [Hier.CacheOk, ho])
  have hr : Reaches2 (Chain.nnwEnv y draw (fun h _ _ => h)) 2 3 exNW θ0 0 s :=
    ⟨zi, o, s, s, [], fun _ => (0, 0), ho, e, rfl, rfl⟩
  exact ⟨s, hr, c94_neal2_nnw_violated y draw _ _ exNW_init (a := 1) (b := 1 / 2)
    (py := ⟨1, 1 / 2⟩) (by norm_num [pyInit]) 2 3 (by omega) (by omega) (by omega) θ0 0 (by omega) hy
    s hr⟩

/-- The condition is met by the univariate hierarchy. -/
example (y : ℕ → ℝ) (draw : NIG → ℕ → UniLS) (θ0 : UniLS) (zi : InitNoise)
    (o : Hier (ℝ × ℝ) NIG UniLS) (ho : o.saved = false) :
    ∫⁻ st, ENNReal.ofReal (Real.exp (uniNormLpdf st (y 0))) ∂(nigLaw ⟨0, 1, 2, 1⟩) =
      ENNReal.ofReal (Real.exp (nnigMargLpdf ⟨0, 1, 2, 1⟩ (y 0))) := by
  obtain ⟨s, e, hs, -, hh, -⟩ := initAlloc_ok (E := nnigEnv y draw (fun h _ _ => h)) (upd := false)
    (K := 2) (n := 3) (h0 := ⟨0, 1, 2, 1⟩) (θ0 := θ0) zi (o := o) (canSave_false _) (by omega)
    (by omega) (by simp [Hier.CacheOk, ho])
  have hr : Reaches2 (nnigEnv y draw (fun h _ _ => h)) 2 3 ⟨0, 1, 2, 1⟩ θ0 0 s :=
    ⟨zi, o, s, s, [], fun _ => (0, 0), ho, e, rfl, rfl⟩
  obtain ⟨s1, pl, p, h⟩ := c94_neal2_nnig y draw (fun h _ _ => h) (fun _ _ _ h => h)
    (.fixed 0 1 2 1) ⟨0, 1, 2, 1⟩ (nigInit_fixed (by norm_num) (by norm_num) (by norm_num)) (a := 1)
    (b := 1 / 2) (py := ⟨1, 1 / 2⟩) (by norm_num [pyInit]) 2 3 (by omega) (by omega) (by omega) θ0 0
    (by omega) s hr
  have := c94_neal2_marginal _ _ (fun i => measurable_uniNormLpdf (y i)) nigLaw _ (a := 1)
    (b := 1 / 2) (py := ⟨1, 1 / 2⟩) (by norm_num [pyInit]) 2 3 (by omega) (by omega) (by omega) _ θ0 0
    (by omega) s hr s1 pl p h
  rwa [hh] at this

end Bayesmix.Gibbs
