import Verif.Algo.LaplaceRun
import Verif.Algo.PropsSlice

/-!
# C146: runs with the Laplace hierarchy
-/

namespace Bayesmix.Chain

open Bayesmix Hierarchies Mixing

theorem iterate_cons_throw {S : Type} {step : S → Bayesmix.Noise → Except Fault S} {s : S}
    (h : ∀ z, step s z = .error .throw) {zs : List Bayesmix.Noise} (hzs : zs ≠ []) :
    iterate step s zs = .error .throw := by
  cases zs with
  | nil => exact absurd rfl hzs
  | cons z zs => simp only [iterate, List.foldlM_cons, h z, error_bind]

/-- **C146, violated.** A Laplace hierarchy with a Langevin updater, in particular as it is built,
completes no iteration of any algorithm. Algorithms that ask for a conjugate hierarchy reject it.
For the others, whatever the data, the step size and the randomness, the first iteration after
initialization throws, and so does every later iteration that would start from a consistent
state. -/
theorem c146_laplace_runs_violated (E : Env Unit NxIG UniLS) (hE : E.kind = .other)
    (data : ℤ → ℝ) (grad : (Fin 2 → ℝ) → Fin 2 → ℝ) (step : ℝ) (w : MetNoise) :
    let D : Draw Unit NxIG UniLS :=
      laplaceDraw data (fun c h => lapNIGMala data c h grad step) w
    (∀ (c : Setup NxIG UniLS) (z : InitNoise) (objs : List (Hier Unit NxIG UniLS)),
      c.algRequiresConjugate = true → initAlgorithm E c z objs = .error .throw) ∧
    (∀ (n K : ℕ) (h0 : NxIG) (θ0 : UniLS) (z : InitNoise) (o : Hier Unit NxIG UniLS), 0 < K →
      K ≤ n → o.CacheOk → ∃ s0, initAlloc E false K n h0 θ0 z [o] = .ok s0 ∧
        (∀ (aux : List (Hier Unit NxIG UniLS)) (zs : List Bayesmix.Noise), 0 < aux.length →
          zs ≠ [] → iterate (neal8StepE E D n) ⟨s0, aux⟩ zs = .error .throw) ∧
        (∀ zs : List Bayesmix.Noise, zs ≠ [] →
          iterate (blockedStepE E D K n) s0 zs = .error .throw) ∧
        (∀ (mix : SBState) (u : List ℝ) (prior : SBPrior) (inf : Bool) (fuel : ℕ)
          (z : Slice.Noise), sliceStepE E D prior inf n fuel ⟨s0, mix, u⟩ z = .error .throw)) ∧
    (∀ (n : ℕ) (z : Bayesmix.Noise), 0 < n →
      (∀ s : Alg8 Unit NxIG UniLS, 0 < s.aux.length → MarginalOk E.contrib n s.base →
        neal8StepE E D n s z = .error .throw) ∧
      (∀ s : Alg Unit NxIG UniLS, Consistent E.contrib n s → CachesOk s →
        blockedStepE E D s.clus.length n s z = .error .throw)) := by
  intro D
  have hD : ∀ θ c i g h r, D θ c i g h r = .error .throw := fun θ c i g h r =>
    laplaceDraw_mala data grad step w θ c i g h r
  refine ⟨?_, ?_, ?_⟩
  · intro c z objs hc
    have hbad : HierBad E.kind objs.length c :=
      .inr (.inr (.inl ⟨hc, by rw [hE]; exact fun h => by cases h⟩))
    rw [initAlgorithm, checkSetup, checkHier_bad hbad]
    rfl
  · intro n K h0 θ0 z o hK hKn hca
    obtain ⟨s0, e0, hm, hlen, -⟩ := initAlloc_ok (E := E) (upd := false) (h0 := h0) (θ0 := θ0) z
      (canSave_false E) hK hKn hca
    have hn : 0 < n := by omega
    refine ⟨s0, e0, ?_, ?_, ?_⟩
    · intro aux zs haux hzs
      exact iterate_cons_throw (fun z => neal8StepE_throw hD z hn haux hm) hzs
    · intro zs hzs
      exact iterate_cons_throw (fun z => blockedStepE_throw hD z hn hlen hm.cons hm.caches) hzs
    · intro mix u prior inf fuel z
      rw [sliceStepE, drawAllE_throw hD _ _ (clus_pos hm.cons hn), error_bind]
  · intro n z hn
    exact ⟨fun s haux hs => neal8StepE_throw hD z hn haux hs,
      fun s hc hca => blockedStepE_throw hD z hn rfl hc hca⟩

/-- A run of Neal8 on three rows with one initial cluster and two auxiliary blocks. -/
example (E : Env Unit NxIG UniLS) (hE : E.kind = .other) (grad : (Fin 2 → ℝ) → Fin 2 → ℝ)
    (w : MetNoise) (zi : InitNoise) (z : Bayesmix.Noise) :
    ∃ s0, initAlloc E false 1 3 ⟨0, 1, 2, 2⟩ ⟨0, 1⟩ zi [⟨⟨0, 1⟩, 0, ∅, (), false, none⟩] =
        .ok s0 ∧
      iterate (neal8StepE E (laplaceDraw (fun i => i ^ 2)
        (fun c h => lapNIGDefaultUpdater (fun i => i ^ 2) c h grad) w) 3)
        ⟨s0, List.replicate 2 ⟨⟨0, 1⟩, 0, ∅, (), false, none⟩⟩ [z, z] = .error .throw := by
  obtain ⟨s0, e, h, -⟩ := (c146_laplace_runs_violated E hE (fun i => i ^ 2) grad 0 w).2.1 3 1
    ⟨0, 1, 2, 2⟩ ⟨0, 1⟩ zi ⟨⟨0, 1⟩, 0, ∅, (), false, none⟩ (by norm_num) (by norm_num)
    (by simp [Hier.CacheOk])
  exact ⟨s0, e, h _ _ (by simp) (by simp)⟩

/-- **C146, what holds.** With a random walk of positive step size instead, iterations of Neal8 and
of blocked Gibbs from consistent states complete and lead to consistent states, whatever the
randomness. For any number of iterations after initialization. -/
theorem c146_random_walk_partial (E : Env Unit NxIG UniLS) (hE : E.kind = .other)
    (data : ℤ → ℝ) (step : ℝ) (hstep : 0 < step) (w : MetNoise) :
    let D : Draw Unit NxIG UniLS := laplaceDraw data (fun _ _ => randomWalk 2 step) w
    ∀ (n K : ℕ) (h0 : NxIG) (θ0 : UniLS) (z : InitNoise) (o : Hier Unit NxIG UniLS), 0 < K →
      K ≤ n → o.CacheOk → ∃ s0, initAlloc E false K n h0 θ0 z [o] = .ok s0 ∧
        (∀ (aux : List (Hier Unit NxIG UniLS)) (zs : List Bayesmix.Noise), 0 < aux.length →
          ∃ s : Alg8 Unit NxIG UniLS, iterate (neal8StepE E D n) ⟨s0, aux⟩ zs = .ok s ∧
            Consistent E.contrib n s.base ∧ NoEmptyOn (Finset.range n) s.base ∧
            s.aux.length = aux.length) ∧
        (∀ zs : List Bayesmix.Noise, ∃ s, iterate (blockedStepE E D K n) s0 zs = .ok s ∧
          Consistent E.contrib n s ∧ s.clus.length = K) := by
  intro D n K h0 θ0 z o hK hKn hca
  have hn : 0 < n := by omega
  choose d hd using fun (θ : UniLS) (c : Int) (i : Finset ℕ) (g : Unit) (h : NxIG) (r : ℕ) =>
    laplaceDraw_randomWalk data hstep w θ c i g h r
  set E' := withDraw E d with hE'
  have hk' : E'.kind = .other := hE
  have hd' : ∀ θ c i g h r, D θ c i g h r = .ok (E'.otherDraw θ c i g h r) := hd
  obtain ⟨s0, e0, hm, hlen, -⟩ := initAlloc_ok (E := E) (upd := false) (h0 := h0) (θ0 := θ0) z
    (canSave_false E) hK hKn hca
  refine ⟨s0, e0, ?_, ?_⟩
  · intro aux zs haux
    obtain ⟨s, e, h1, h2⟩ := foldlM_list_inv (neal8StepE E D n)
      (fun s : Alg8 Unit NxIG UniLS => MarginalOk E.contrib n s.base ∧ s.aux.length = aux.length)
      (by
        rintro z s ⟨h1, h2⟩
        obtain ⟨s', e, h1', h2'⟩ := neal8Step_ok (E := E') z hn (by omega) h1
        refine ⟨s', ?_, h1', by omega⟩
        rw [← neal8StepE_withDraw E D d, neal8StepE_total hk' hd', e]) zs ⟨s0, aux⟩ ⟨hm, rfl⟩
    exact ⟨s, e, h1.cons, h1.noEmpty, h2⟩
  · intro zs
    obtain ⟨s, e, h1, h2, h3⟩ := foldlM_list_inv (blockedStepE E D K n)
      (fun s : Alg Unit NxIG UniLS => Consistent E.contrib n s ∧ CachesOk s ∧ s.clus.length = K)
      (by
        rintro z s ⟨h1, h2, h3⟩
        obtain ⟨s', e, h1', h2', h3'⟩ := blockedStep_ok (E := E') z hn h3 h1 h2
        refine ⟨s', ?_, h1', h2', h3'⟩
        rw [← blockedStepE_withDraw E D d, blockedStepE_total hk' hd', e]) zs s0
      ⟨hm.cons, hm.caches, hlen⟩
    exact ⟨s, e, h1, h3⟩

example (E : Env Unit NxIG UniLS) (hE : E.kind = .other) (w : MetNoise) (zi : InitNoise)
    (z : Bayesmix.Noise) :
    ∃ s0, initAlloc E false 2 3 ⟨0, 1, 2, 2⟩ ⟨0, 1⟩ zi [⟨⟨0, 1⟩, 0, ∅, (), false, none⟩] =
        .ok s0 ∧
      ∃ s, iterate (blockedStepE E (laplaceDraw (fun i => i ^ 2)
        (fun _ _ => randomWalk 2 (1 / 10)) w) 2 3) s0 [z, z, z] = .ok s ∧
        s.clus.length = 2 := by
  obtain ⟨s0, e, -, h⟩ := c146_random_walk_partial E hE (fun i => i ^ 2) (1 / 10) (by norm_num) w
    3 2 ⟨0, 1, 2, 2⟩ ⟨0, 1⟩ zi ⟨⟨0, 1⟩, 0, ∅, (), false, none⟩ (by norm_num) (by norm_num)
    (by simp [Hier.CacheOk])
  obtain ⟨s, e', -, h'⟩ := h [z, z, z]
  exact ⟨s0, e, s, e', h'⟩

/-- **C146, what holds for the slice sampler.** With a random walk of positive step size an
iteration from a good state leads to a good state, unless a draw of a stick throws or sticks are
broken without end; it succeeds for the draws for which the iterations of the other hierarchies
succeed (`c08_step_succeeds`). -/
theorem c146_random_walk_slice_partial (E : Env Unit NxIG UniLS) (hE : E.kind = .other)
    (data : ℤ → ℝ) (step : ℝ) (hstep : 0 < step) (w : MetNoise) (prior : SBPrior) (inf : Bool)
    (n : ℕ) (hn : 0 < n) (s : Slice.State Unit NxIG UniLS)
    (hs : Slice.StateOk E.contrib prior n s) (z : Slice.Noise) :
    let D : Draw Unit NxIG UniLS := laplaceDraw data (fun _ _ => randomWalk 2 step) w
    (∀ fuel, (∃ s', sliceStepE E D prior inf n fuel s z = .ok s' ∧
          Slice.StateOk E.contrib prior n s') ∨
        sliceStepE E D prior inf n fuel s z = .error .throw ∨
        sliceStepE E D prior inf n fuel s z = .error .outOfFuel) ∧
    (((∃ m, 0 < m ∧ prior = .dp m) ∨ ∃ a b, 0 < a ∧ 0 ≤ b ∧ b < 1 ∧ prior = .py a b) →
      ∀ ε : ℝ, 0 < ε →
      (∀ j a b, 0 < a → 0 < b → 0 ≤ z.upd j a b ∧ z.upd j a b ≤ 1) →
      (∀ j a b, 0 < a → 0 < b → ε ≤ z.brk j a b ∧ z.brk j a b ≤ 1) →
      (∀ i v, 0 < v → 0 ≤ z.unif i v ∧ z.unif i v < v) →
      (∀ m, sbUpdate s.mix prior inf (s.alg.clus.map fun o => o.card.toNat) z.upd = .ok m →
        ∀ c ∈ s.alg.alloc, (1e-16 : ℝ) < (stickWeights m.sticks).getD c 0) →
      ∃ F, ∀ fuel ≥ F, ∃ s', sliceStepE E D prior inf n fuel s z = .ok s' ∧
        Slice.StateOk E.contrib prior n s') := by
  intro D
  choose d hd using fun (θ : UniLS) (c : Int) (i : Finset ℕ) (g : Unit) (h : NxIG) (r : ℕ) =>
    laplaceDraw_randomWalk data hstep w θ c i g h r
  have e : ∀ fuel, sliceStepE E D prior inf n fuel s z =
      Slice.step (withDraw E d) prior inf n fuel s z := by
    intro fuel
    rw [← sliceStepE_total (E := withDraw E d) hE hd, sliceStepE_withDraw]
  simp only [e]
  exact ⟨fun fuel => Slice.c08_step (withDraw E d) prior inf n hn fuel s hs z,
    fun hp ε hε h1 h2 h3 h4 =>
      Slice.c08_step_succeeds (withDraw E d) prior inf n hn hp s hs z ε hε h1 h2 h3 h4⟩

example (E : Env Unit NxIG UniLS) (hE : E.kind = .other) (w : MetNoise) (o : Hier Unit NxIG UniLS)
    (prior : SBPrior) (mix : SBState) (hm : sbInit prior 2 = .ok mix) (draws : ℕ → ℝ → ℝ)
    (zi : InitNoise) (z : Slice.Noise) (ho : o.saved = false) :
    ∃ alg, initAlloc E false 2 3 ⟨0, 1, 2, 2⟩ ⟨0, 1⟩ zi [o] = .ok alg ∧
      ∀ s, Slice.initSlice 3 draws alg mix = .ok s →
        sliceStepE E (laplaceDraw (fun i => i ^ 2) (fun _ _ => randomWalk 2 (1 / 10)) w) prior true 3
          1 s z ≠ .error .ub := by
  obtain ⟨alg, e, h⟩ := Slice.c08_init E prior 2 3 (by norm_num) (by norm_num) ⟨0, 1, 2, 2⟩ ⟨0, 1⟩ zi
    o (by simp [ho]) mix hm draws
  refine ⟨alg, e, fun s hs hub => ?_⟩
  rcases h with ⟨s', e', hok, -⟩ | h
  · rw [hs] at e'
    obtain rfl := Except.ok.inj e'
    rcases (c146_random_walk_slice_partial E hE (fun i => i ^ 2) (1 / 10) (by norm_num) w prior true
      3 (by norm_num) s hok z).1 1 with ⟨s', h, -⟩ | h | h <;> rw [h] at hub <;> cases hub
  · rw [h] at hs; cases hs

end Bayesmix.Chain
