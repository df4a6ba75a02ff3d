import Verif.Algo.GibbsCore
import Verif.Algo.PropsSplitMerge
import Verif.Alloc.InitLemmas
import Verif.Mixing.Props

/-!
# C55: the collapsed Gibbs update of Neal3
-/

namespace Bayesmix.Gibbs
open Bayesmix.SplitMerge Bayesmix.Mixing Bayesmix.Hierarchies

variable {G H Θ : Type} [AddCommGroup G]

/-- In state `s` the update of row `i` first takes the row out (`s1`), then chooses with
probabilities `p`; `p` is the conditional distribution under the weights `π` of the place of row
`i` given the partition of all other rows. -/
structure IsConditional (E : Env G H Θ) (S : Scores H) (n : ℕ) (s : Alg G H Θ) (i : ℕ)
    (π : List ℕ → ℝ) (s1 : Alg G H Θ) (p : List ℝ) : Prop where
  /-- `p` is what the code computes on the state without row `i` -/
  computed : ∃ x, detach E true s i = .ok (s1, x) ∧ neal3Probas E S n s1 i = .ok p
  /-- a probability vector -/
  sum_one : p.sum = 1
  pos : ∀ q ∈ p, 0 < q
  /-- every choice leads to a state, without failure, and changes the place of row `i` only -/
  moves : ∀ c < p.length, ∀ rd, ∃ s', neal2Datum E true s i c rd = .ok s' ∧
    s'.alloc = s1.alloc.set i c ∧ SameOthers n i s'.alloc s.alloc
  /-- every partition that agrees with the current one on the other rows is reached by exactly one
  choice -/
  complete : ∀ al, SameOthers n i al s.alloc →
    ∃! c, c < p.length ∧ SamePart n (s1.alloc.set i c) al
  /-- probability = weight / sum of the weights -/
  cond : ∀ c q, p[c]? = some q →
    q * ∑ d ∈ Finset.range p.length, π (s1.alloc.set i d) = π (s1.alloc.set i c)

/-- The update of row `i` and its reverse have the same probability flow under `π`. -/
def Balanced (E : Env G H Θ) (S : Scores H) (n : ℕ) (s : Alg G H Θ) (i : ℕ)
    (π : List ℕ → ℝ) (p : List ℝ) : Prop :=
  ∀ c q rd s', p[c]? = some q → neal2Datum E true s i c rd = .ok s' →
    ∃ s1' x' p' c' q', detach E true s' i = .ok (s1', x') ∧ neal3Probas E S n s1' i = .ok p' ∧
      p'[c']? = some q' ∧
      (∀ rd', ∃ s'', neal2Datum E true s' i c' rd' = .ok s'' ∧ SamePart n s''.alloc s.alloc) ∧
      π s.alloc * q = π s'.alloc * q'

theorem reduced_card_le {n i K K' : ℕ} {al al' : List ℕ} (h : Reduced n i K al)
    (h' : Reduced n i K' al') (hs : SameOthers n i al al') : K ≤ K' := by
  have : ∀ c, ∃ d, c < K → d < K' ∧ ∃ x < n, x ≠ i ∧ al[x]? = some c ∧ al'[x]? = some d := by
    intro c
    by_cases hc : c < K
    · obtain ⟨x, hx, hxi, e⟩ := h.used c hc
      obtain ⟨d, hd, e'⟩ := h'.lab x hx hxi
      exact ⟨d, fun _ => ⟨hd, x, hx, hxi, e, e'⟩⟩
    · exact ⟨0, fun h => absurd h hc⟩
  choose f hf using this
  have := Finset.card_le_card_of_injOn (s := Finset.range K) (t := Finset.range K') f
    (by
      intro c hc
      exact Finset.mem_coe.mpr (Finset.mem_range.mpr (hf c (Finset.mem_range.mp hc)).1))
    (by
      intro a ha b hb hab
      obtain ⟨-, x, hx, hxi, e1, e2⟩ := hf a (Finset.mem_range.mp (Finset.mem_coe.mp ha))
      obtain ⟨-, y, hy, hyi, e3, e4⟩ := hf b (Finset.mem_range.mp (Finset.mem_coe.mp hb))
      have : together al x y := (hs x hx y hy hxi hyi).mpr (by
        unfold together; rw [e2, e4, hab])
      unfold together at this
      rw [e1, e3] at this
      exact Option.some.inj this)
  simpa using this

/-- The update for weights of product form. -/
theorem conditional_of (E : Env G H Θ) (S : Scores H) (hk : E.kind ≠ .other) {n : ℕ} (hn : 2 ≤ n)
    {s : Alg G H Θ} (hs : MarginalOk E.contrib n s) (hf : ∀ o ∈ s.clus, o.Fresh E s.hyp)
    {i : ℕ} (hi : i < n) {m : Finset ℕ → ℝ} (hm : MargLik E S s.hyp m) :
    ∃ s1 p, Reduced n i s1.clus.length s1.alloc ∧ p.length = s1.clus.length + 1 ∧
      SameOthers n i s1.alloc s.alloc ∧
      ∀ (π : List ℕ → ℝ) (κ : ℝ) (A B : ℕ → ℝ), (∀ c, B c ≠ 0) →
      (∀ al : List ℕ, al.length = n → π al = κ * prodPost A (blockW B m) al) →
      A (s1.clus.length + 1) * B 1 = A s1.clus.length * Real.exp (S.fresh (n - 1) s1.clus.length) →
      (∀ c : ℕ, 1 ≤ c → B (c + 1) = B c * Real.exp (S.exist (n - 1) s1.clus.length c)) →
      IsConditional E S n s i π s1 p := by
  obtain ⟨s1, x, p, hdet, hp, hR, hso, hlen, hsum, hpos, hcond⟩ :=
    gibbs_core E S hk hn hs hf hi hm
  refine ⟨s1, p, hR, hlen, hso, ?_⟩
  intro π κ A B hB0 hπ hA hB
  have hl1 : s1.alloc.length = s.alloc.length := by rw [hR.len, hs.cons.len]
  refine ⟨⟨x, hdet, hp⟩, hsum, hpos, ?_, ?_, ?_⟩
  · intro c hc rd
    obtain ⟨s', e, hr, -⟩ := neal2Datum_ok (upd := true) c rd hn (fun _ => hk) hs.cons hs.noEmpty
      hs.caches hi
    have ha := neal2Datum_alloc hs.cons.len hi hl1 hdet e
    rw [Nat.mod_eq_of_lt (by omega)] at ha
    exact ⟨s', e, ha, fun a ha b hb h1 h2 => hr.co a ha b hb h1 h2⟩
  · intro al hal
    rw [hlen]
    exact unique_choice hR (hso.trans hal.symm)
  · intro c q hq
    have e : ∀ d, π (s1.alloc.set i d) = κ * prodPost A (blockW B m) (s1.alloc.set i d) :=
      fun d => hπ _ (by simp [hR.len])
    simp only [e, ← Finset.mul_sum]
    have := hcond A B hA hB hB0 c q hq
    linear_combination κ * this

theorem balanced_of {E : Env G H Θ} {S : Scores H} {n i : ℕ} {s : Alg G H Θ} {π : List ℕ → ℝ}
    {s1 : Alg G H Θ} {p : List ℝ} (hlen : s.alloc.length = n) (hi : i < n)
    (hpos : ∀ al : List ℕ, al.length = n → 0 < π al)
    (hinv : ∀ al al' : List ℕ, al.length = n → al'.length = n → SamePart n al al' → π al = π al')
    (hl1 : s1.alloc.length = n)
    (hc : IsConditional E S n s i π s1 p)
    (hnext : ∀ c rd s', c < p.length → neal2Datum E true s i c rd = .ok s' →
      ∃ s1' p', IsConditional E S n s' i π s1' p' ∧ s1'.alloc.length = n ∧
        ∑ d ∈ Finset.range p'.length, π (s1'.alloc.set i d) =
          ∑ d ∈ Finset.range p.length, π (s1.alloc.set i d)) :
    Balanced E S n s i π p := by
  intro c q rd s' hq e
  have hcl : c < p.length := (List.getElem?_eq_some_iff.mp hq).1
  obtain ⟨t, et, hal, hso⟩ := hc.moves c hcl rd
  rw [e] at et; cases et
  obtain ⟨s1', p', hc', hl', hsum⟩ := hnext c rd s' hcl e
  obtain ⟨x', hdet', hp'⟩ := hc'.computed
  obtain ⟨c', ⟨hc'l, hpart⟩, -⟩ := hc'.complete s.alloc hso.symm
  refine ⟨s1', x', p', c', p'[c'], hdet', hp', List.getElem?_eq_getElem hc'l, ?_, ?_⟩
  · intro rd'
    obtain ⟨s'', e'', ha'', -⟩ := hc'.moves c' hc'l rd'
    exact ⟨s'', e'', by rw [ha'']; exact hpart⟩
  · have e1 := hc.cond c q hq
    have e2 := hc'.cond c' _ (List.getElem?_eq_getElem hc'l)
    rw [← hal] at e1
    rw [hinv _ s.alloc (by simp [hl']) hlen hpart, hsum] at e2
    have hsp : 0 < ∑ d ∈ Finset.range p.length, π (s1.alloc.set i d) := by
      apply Finset.sum_pos
      · intro d _; exact hpos _ (by simp [hl1])
      · exact ⟨c, Finset.mem_range.mpr hcl⟩
    rw [← e1, ← e2]
    ring

/-- Both statements for weights of product form. -/
theorem gibbs_all (E : Env G H Θ) (S : Scores H) (hk : E.kind ≠ .other) {n : ℕ} (hn : 2 ≤ n)
    {s : Alg G H Θ} (hs : MarginalOk E.contrib n s) (hf : ∀ o ∈ s.clus, o.Fresh E s.hyp)
    {i : ℕ} (hi : i < n) {m : Finset ℕ → ℝ} (hm : MargLik E S s.hyp m)
    {π : List ℕ → ℝ} {κ : ℝ} {A B : ℕ → ℝ} (hB0 : ∀ c, B c ≠ 0)
    (hπ : ∀ al : List ℕ, al.length = n → π al = κ * prodPost A (blockW B m) al)
    (hpos : ∀ al : List ℕ, al.length = n → 0 < π al)
    (K : ℕ) (hK : ∀ s1 x, detach E true s i = .ok (s1, x) → s1.clus.length = K)
    (hA : 1 ≤ K → A (K + 1) * B 1 = A K * Real.exp (S.fresh (n - 1) K))
    (hB : ∀ c : ℕ, 1 ≤ c → B (c + 1) = B c * Real.exp (S.exist (n - 1) K c)) :
    ∃ s1 p, IsConditional E S n s i π s1 p ∧ Balanced E S n s i π p := by
  obtain ⟨s1, p, hR, hlen, hso, hall⟩ := conditional_of E S hk hn hs hf hi hm
  have hpos1 := hR.pos hn
  obtain ⟨t1, x, hdt⟩ : ∃ t1 x, detach E true s i = .ok (t1, x) := by
    obtain ⟨s1, c, o, hdet, -⟩ := detach_ok (upd := true) (fun _ => hk) hs.cons.on
      (Finset.mem_range.mpr hi)
    exact ⟨_, _, hdet⟩
  have hKs : s1.clus.length = K := by
    have h0 := hall (fun _ => 0) 0 (fun K => Real.exp (∑ k ∈ Finset.range K, S.fresh (n - 1) k))
      (fun c => Real.exp (∑ k ∈ Finset.range c, if k = 0 then 0 else S.exist (n - 1) s1.clus.length k))
      (fun c => Real.exp_ne_zero _) (by simp) (by
        rw [Finset.sum_range_succ, Real.exp_add]; simp) (by
        intro c hc
        have : c ≠ 0 := by omega
        rw [Finset.sum_range_succ, Real.exp_add, if_neg this])
    obtain ⟨x, hd, -⟩ := h0.computed
    exact hK s1 x hd
  rw [hKs] at hall hpos1
  have hcond := hall π κ A B hB0 hπ (hA hpos1) hB
  refine ⟨s1, p, hcond, ?_⟩
  refine balanced_of hs.cons.len hi hpos ?_ hR.len hcond ?_
  · intro al al' h1 h2 h
    rw [hπ al h1, hπ al' h2, prodPost_congr A _ h1 h2 h]
  · intro c rd s' hc e
    obtain ⟨t, et, hr, hne⟩ := neal2Datum_ok (upd := true) c rd hn (fun _ => hk) hs.cons hs.noEmpty
      hs.caches hi
    rw [e] at et; cases et
    have hf' : ∀ o ∈ s'.clus, o.Fresh E s'.hyp := by
      intro o ho
      rw [hr.hyp]
      rcases neal3Datum_objs hk hs.cons hi e o ho with h | h
      · exact h
      · exact hf o h.1
    obtain ⟨s1', p', hR', hlen', hso', hall'⟩ := conditional_of E S hk hn
      (s := s') ⟨hr.cons, hne, hr.caches⟩ hf' hi (m := m) (by rw [hr.hyp]; exact hm)
    have hsame : SameOthers n i s1.alloc s1'.alloc :=
      hso.trans (SameOthers.trans
        (fun a ha b hb h1 h2 => (hr.co a ha b hb h1 h2).symm) hso'.symm)
    have hKK : s1'.clus.length = K := by
      rw [← hKs]
      exact le_antisymm (reduced_card_le hR' hR hsame.symm) (reduced_card_le hR hR' hsame)
    rw [hKK] at hall'
    refine ⟨s1', p', hall' π κ A B hB0 hπ (hA hpos1) hB, hR'.len, ?_⟩
    have e1 : ∀ d, π (s1.alloc.set i d) = κ * prodPost A (blockW B m) (s1.alloc.set i d) :=
      fun d => hπ _ (by simp [hR.len])
    have e2 : ∀ d, π (s1'.alloc.set i d) = κ * prodPost A (blockW B m) (s1'.alloc.set i d) :=
      fun d => hπ _ (by simp [hR'.len])
    simp only [e1, e2, ← Finset.mul_sum, hlen, hlen']
    rw [sum_choices A (blockW B m) hR hR' hsame]

/-! ### Reachable states -/

/-- `t` is a state in which a row is about to be updated: `zs` are whole iterations after the
initialization, `i` the number of rows already updated in the current one. -/
def Reaches (E : Env G H Θ) (K n : ℕ) (h0 : H) (θ0 : Θ) (i : ℕ) (t : Alg G H Θ) : Prop :=
  ∃ (zi : InitNoise) (u : Hier G H Θ) (s0 s : Alg G H Θ) (zs : List Noise) (ω : ℕ → ℕ × ℕ),
    u.saved = false ∧ initAlloc E true K n h0 θ0 zi [u] = .ok s0 ∧
    iterate (neal2Step E true n) s0 zs = .ok s ∧ neal2Allocations E true i ω s = .ok t

theorem reaches_ok {E : Env G H Θ} (hfix : ∀ h l r, E.hyperUpdate h l r = h) {K n : ℕ}
    (hn : 2 ≤ n) (hk : E.kind ≠ .other) {h0 : H} {θ0 : Θ} (hK : 0 < K) (hKn : K ≤ n) {i : ℕ}
    (hi : i < n) {t : Alg G H Θ} (hr : Reaches E K n h0 θ0 i t) :
    MarginalOk E.contrib n t ∧ t.hyp = h0 ∧ ∀ o ∈ t.clus, o.Fresh E t.hyp := by
  obtain ⟨zi, u, s0, s, zs, ω, hu, hinit, hrun, hpre⟩ := hr
  obtain ⟨t0, e0, hm0, -, hh0, hf0⟩ := initAlloc_ok (E := E) (upd := true) (h0 := h0) (θ0 := θ0)
    zi (o := u) (fun _ => hk) hK hKn (by simp [Hier.CacheOk, hu])
  rw [hinit] at e0; cases e0
  have hfresh0 : ∀ o ∈ s0.clus, o.Fresh E s0.hyp := by
    intro o ho
    obtain ⟨j, hj⟩ := List.getElem?_of_mem ho
    rw [hh0]; exact hf0 rfl j o hj
  obtain ⟨t', et, hm, hh, hf⟩ := foldlM_list_inv (neal2Step E true n)
    (fun t => MarginalOk E.contrib n t ∧ t.hyp = h0 ∧ ∀ o ∈ t.clus, o.Fresh E h0) (fun z t ht => by
      obtain ⟨h1, h2, h3⟩ := ht
      obtain ⟨a1, ea, ha, hah, haf⟩ := neal3Allocations_fresh z.cat hn hk h1
      obtain ⟨a2, a3, e2, e3, hm3⟩ := marginal_tail_ok (upd := true) z (by omega) ha
      refine ⟨a3, by simp [neal2Step, ea, e2, e3], hm3, ?_⟩
      obtain ⟨b, e2', hc2, -, -, -, hb, hobj⟩ :=
        sampleUniqueValues_ok (E := E) (upd := true) (r := z.uv) ha.cons ha.caches
      rw [e2] at e2'; cases e2'
      have h3e : a3 = a2 := by
        unfold updateHypers at e3
        rw [vget_ok (List.getElem?_eq_getElem (clus_pos hc2 (by omega))), ok_bind] at e3
        cases e3
        rw [hfix]
      rw [h3e]
      refine ⟨by rw [hb, hah, h2], ?_⟩
      intro o ho
      obtain ⟨j, hj⟩ := List.getElem?_of_mem ho
      obtain ⟨p, hp, hdr, -⟩ := hobj j o hj
      have := haf p (List.mem_of_getElem? hp)
      rw [h2] at this
      exact Hier.fresh_draw this hdr) zs s0 ⟨hm0, hh0, by rw [← hh0]; exact hfresh0⟩
  have : iterate (neal2Step E true n) s0 zs = .ok t' := et
  rw [hrun] at this; cases this
  obtain ⟨t'', et'', hmt, hht, hft⟩ := neal3Prefix_fresh ω i (by omega) hn hk hm
    (by rw [hh]; exact hf)
  rw [hpre] at et''; cases et''
  exact ⟨hmt, by rw [hht, hh], by rw [hht]; exact hft⟩

/-! ### The three mixings -/

/-- A run on three rows with the normal model is in a state of the required form before the first
row of the first iteration. -/
theorem reaches_example (y : ℕ → ℝ) (draw : NIG → ℕ → UniLS) (θ0 : UniLS) (zi : InitNoise)
    (o : Hier (ℝ × ℝ) NIG UniLS) (ho : o.saved = false) :
    ∃ s, Reaches (nnigEnv y draw (fun h _ _ => h)) 1 3 ⟨0, 1, 2, 1⟩ θ0 0 s ∧
      s.alloc.length = 3 := by
  obtain ⟨s, e, hs, -⟩ := initAlloc_ok (E := nnigEnv y draw (fun h _ _ => h)) (upd := true) (K := 1)
    (n := 3) (h0 := ⟨0, 1, 2, 1⟩) (θ0 := θ0) zi (o := o) (by simp [CanSave, nnigEnv]) one_pos
    (by omega) (by simp [Hier.CacheOk, ho])
  exact ⟨s, ⟨zi, o, s, s, [], fun _ => (0, 0), ho, e, rfl, rfl⟩, hs.cons.len⟩

theorem posterior_prod {st : PYState} (hs : -1 < st.strength) (m : Finset ℕ → ℝ) {n : ℕ}
    (hn : 0 < n) (al : List ℕ) (hl : al.length = n) :
    pyPosterior st m al = (pyD st n)⁻¹ * prodPost (pyA st) (blockW (pyB st) m) al := by
  have hne : al ≠ [] := by intro h; simp [h] at hl; omega
  rw [pyPosterior, posterior, py_scheme_closed st hs hne, prodPost, hl]
  have : ∏ c ∈ al.toFinset, blockW (pyB st) m (membersIn (Finset.range n) al c) =
      (∏ c ∈ al.toFinset, pyB st (al.count c)) *
        Real.exp (∑ c ∈ al.toFinset, m (membersIn (Finset.range n) al c)) := by
    rw [Real.exp_sum, ← Finset.prod_mul_distrib]
    apply Finset.prod_congr rfl
    intro c _
    rw [blockW, count_eq_card, hl]
  rw [this, div_eq_mul_inv]
  ring

theorem detach_length {E : Env G H Θ} (hk : E.kind ≠ .other) {n : ℕ} {s : Alg G H Θ}
    (hs : MarginalOk E.contrib n s) {i : ℕ} (hi : i < n) :
    ∃ K, ∀ s1 x, detach E true s i = .ok (s1, x) → s1.clus.length = K := by
  obtain ⟨s1, c, o, hdet, -⟩ := detach_ok (upd := true) (fun _ => hk) hs.cons.on
    (Finset.mem_range.mpr hi)
  refine ⟨s1.clus.length, fun t x h => ?_⟩
  rw [hdet] at h
  cases h
  rfl

theorem pyB_succ (st : PYState) {c : ℕ} (hc : 1 ≤ c) :
    pyB st (c + 1) = pyB st c * ((c : ℝ) - st.discount) := by
  unfold pyB
  rw [range_prod_succ (fun i : ℕ => (i : ℝ) + 1 - st.discount) c (by omega)]
  congr 1
  have := cast_pred (show 0 < c by omega)
  linarith

theorem py_gibbs (E : Env G H Θ) (pred : H → ℕ → ℝ) {a b : ℝ} {py : PYState}
    (hpy : pyInit a b = .ok py) (hk : E.kind ≠ .other) {n : ℕ} (hn : 2 ≤ n) {h0 : H}
    {m : Finset ℕ → ℝ} (hm : MargLik E (pyScores pred py) h0 m) {i : ℕ} (hi : i < n)
    {s : Alg G H Θ} (hs : MarginalOk E.contrib n s) (hh : s.hyp = h0)
    (hf : ∀ o ∈ s.clus, o.Fresh E s.hyp) :
    ∃ s1 p, IsConditional E (pyScores pred py) n s i (pyPosterior py m) s1 p ∧
      Balanced E (pyScores pred py) n s i (pyPosterior py m) p := by
  obtain ⟨K, hK⟩ := detach_length hk hs hi
  obtain ⟨rfl, p1, p2, p3⟩ := pyInit_ok hpy
  have hst : -1 < a := by linarith
  refine gibbs_all E _ hk hn hs hf hi (m := m) (by rw [hh]; exact hm)
    (κ := (pyD ⟨a, b⟩ n)⁻¹) (A := pyA ⟨a, b⟩) (B := pyB ⟨a, b⟩) (fun c => (pyB_pos p3 c).ne')
    (fun al hl => posterior_prod hst m (by omega) al hl) ?_ K hK ?_ ?_
  · intro al hl
    rw [pyPosterior_eq p1 p2 p3 m (by intro h; simp [h] at hl; omega)]
    exact Real.exp_pos _
  · intro h1
    have hpos : 0 < a + b * K := by
      have : (1 : ℝ) ≤ K := by exact_mod_cast h1
      nlinarith
    have e : (pyScores pred ⟨a, b⟩).fresh (n - 1) K = Real.log (a + b * K) := by
      simp [pyScores, pyLogMassNew, stdLog, hpos.ne']
    rw [pyA_succ ⟨a, b⟩ h1, e, Real.exp_log hpos]
    simp [pyB]
  · intro c hc
    have h1 : (1 : ℝ) ≤ c := by exact_mod_cast hc
    have hc0 : c ≠ 0 := by omega
    have hpos : 0 < (c : ℝ) - b := by linarith
    have e : (pyScores pred ⟨a, b⟩).exist (n - 1) K c = Real.log ((c : ℝ) - b) := by
      simp [pyScores, pyLogMassExisting, stdLog, hpos.ne', hc0]
    rw [pyB_succ ⟨a, b⟩ hc, e, Real.exp_log hpos]

/-- **C55, Pitman-Yor process.** Neal3 with a conjugate hierarchy and fixed hyperparameters, in
every state that a run can be in when row `i` is about to be updated: the probabilities of the
choices are the conditional distribution of the place of row `i` given the partition of the other
rows, under the posterior over partitions of the Pitman-Yor mixture; and the update satisfies
detailed balance for that posterior. -/
theorem c55_pitman_yor (E : Env G H Θ) (hfix : ∀ h l r, E.hyperUpdate h l r = h)
    (pred : H → ℕ → ℝ) {a b : ℝ} {py : PYState} (hpy : pyInit a b = .ok py)
    (hk : E.kind ≠ .other) (K n : ℕ) (hn : 2 ≤ n) (hK : 0 < K) (hKn : K ≤ n) (h0 : H) (θ0 : Θ)
    (m : Finset ℕ → ℝ) (hm : MargLik E (pyScores pred py) h0 m) (i : ℕ) (hi : i < n)
    (s : Alg G H Θ) (hs : Reaches E K n h0 θ0 i s) :
    ∃ s1 p, IsConditional E (pyScores pred py) n s i (pyPosterior py m) s1 p ∧
      Balanced E (pyScores pred py) n s i (pyPosterior py m) p := by
  obtain ⟨hs, hh, hf⟩ := reaches_ok hfix hn hk hK hKn hi hs
  exact py_gibbs E pred hpy hk hn hm hi hs hh hf

example (y : ℕ → ℝ) (draw : NIG → ℕ → UniLS) (θ0 : UniLS) (zi : InitNoise)
    (o : Hier (ℝ × ℝ) NIG UniLS) (ho : o.saved = false) :
    ∃ s s1 p m, Reaches (nnigEnv y draw (fun h _ _ => h)) 1 3 ⟨0, 1, 2, 1⟩ θ0 0 s ∧
      IsConditional (nnigEnv y draw (fun h _ _ => h))
        (pyScores (fun h x => nnigMargLpdf h (y x)) ⟨1, 1 / 2⟩) 3 s 0
        (pyPosterior ⟨1, 1 / 2⟩ m) s1 p := by
  obtain ⟨s, hs, -⟩ := reaches_example y draw θ0 zi o ho
  obtain ⟨m, hm, -⟩ := c83_nnig_marginal y draw (fun h _ _ => h)
    (pyScores (fun h x => nnigMargLpdf h (y x)) ⟨1, 1 / 2⟩).exist
    (pyScores (fun h x => nnigMargLpdf h (y x)) ⟨1, 1 / 2⟩).fresh ⟨0, 1, 2, 1⟩ (by norm_num)
    (by norm_num) (by norm_num)
  obtain ⟨s1, p, hc, -⟩ := c55_pitman_yor (nnigEnv y draw (fun h _ _ => h)) (fun _ _ _ => rfl)
    (fun h x => nnigMargLpdf h (y x)) (a := 1) (b := 1 / 2) (py := ⟨1, 1 / 2⟩)
    (by norm_num [pyInit]) (by simp [nnigEnv]) 1 3 (by omega) (by omega) (by omega) _ θ0 m hm 0
    (by omega) s hs
  exact ⟨s, s1, p, m, hs, hc⟩

theorem dp_posterior_prod (m : Finset ℕ → ℝ) {n : ℕ} (hn : 2 ≤ n) {α : ℝ} (hα : 0 < α)
    (al : List ℕ) (hl : al.length = n) : dpPosterior α m al =
      (pyD ⟨α, 0⟩ n)⁻¹ * prodPost (pyA ⟨α, 0⟩) (blockW (pyB ⟨1, 0⟩) m) al := by
  rw [dpPosterior_eq, posterior_prod (st := ⟨α, 0⟩) (by simp only; linarith) m
    (by omega : 0 < n) al hl]
  rfl

theorem dp_posterior_pos (m : Finset ℕ → ℝ) {n : ℕ} (hn : 2 ≤ n) {α : ℝ} (hα : 0 < α)
    (al : List ℕ) (hl : al.length = n) : 0 < dpPosterior α m al := by
  rw [dpPosterior_eq, pyPosterior_eq (st := ⟨α, 0⟩) (by simpa using hα) le_rfl one_pos m
    (by intro h; simp [h] at hl; omega)]
  exact Real.exp_pos _

theorem dp_gibbs (E : Env G H Θ) (pred : H → ℕ → ℝ) {prior : DPPrior} {dp : DPState}
    (hdp : DPRun prior dp) (hk : E.kind ≠ .other) {n : ℕ} (hn : 2 ≤ n) {h0 : H}
    {m : Finset ℕ → ℝ} (hm : MargLik E (dpScores pred dp) h0 m) {i : ℕ} (hi : i < n)
    {s : Alg G H Θ} (hs : MarginalOk E.contrib n s) (hh : s.hyp = h0)
    (hf : ∀ o ∈ s.clus, o.Fresh E s.hyp) :
    ∃ s1 p, IsConditional E (dpScores pred dp) n s i (dpPosterior 1 m) s1 p ∧
      Balanced E (dpScores pred dp) n s i (dpPosterior 1 m) p := by
  obtain ⟨K, hK⟩ := detach_length hk hs hi
  exact gibbs_all E (dpScores pred dp) hk hn hs hf hi (m := m)
    (by rw [hh]; exact hm) (κ := (pyD ⟨1, 0⟩ n)⁻¹) (A := pyA ⟨1, 0⟩) (B := pyB ⟨1, 0⟩)
    (fun c => (pyB_pos one_pos c).ne') (dp_posterior_prod m hn one_pos)
    (dp_posterior_pos m hn one_pos) K hK
    (by
      intro h1
      have e : (dpScores pred dp).fresh (n - 1) K = 0 := by
        simp [dpScores, (c26_dirichlet_log_mass_violated hdp (n - 1)).1]
      rw [pyA_succ ⟨1, 0⟩ h1, e]
      simp [pyB])
    (by
      intro c hc
      have hc0 : c ≠ 0 := by omega
      have hcp : (0 : ℝ) < c := by exact_mod_cast hc
      have e : (dpScores pred dp).exist (n - 1) K c = Real.log c := by
        simp [dpScores, dpLogMassExisting, logCard, hc0]
      rw [pyB_succ ⟨1, 0⟩ hc, e, Real.exp_log hcp]
      simp)

/-- **C55, Dirichlet process, what the code targets.** With a Dirichlet process mixing whose state
was initialized and updated by the code, the update is the conditional distribution, and satisfies
detailed balance, for the posterior with total mass **one**; it is the conditional distribution of
the posterior with total mass `α` only if `α = 1`. -/
theorem c55_dirichlet_partial (E : Env G H Θ) (hfix : ∀ h l r, E.hyperUpdate h l r = h)
    (pred : H → ℕ → ℝ) {prior : DPPrior} {dp : DPState} (hdp : DPRun prior dp)
    (hk : E.kind ≠ .other) (K n : ℕ) (hn : 2 ≤ n) (hK : 0 < K) (hKn : K ≤ n) (h0 : H) (θ0 : Θ)
    (m : Finset ℕ → ℝ) (hm : MargLik E (dpScores pred dp) h0 m) (i : ℕ) (hi : i < n)
    (s : Alg G H Θ) (hs : Reaches E K n h0 θ0 i s) :
    ∃ s1 p, IsConditional E (dpScores pred dp) n s i (dpPosterior 1 m) s1 p ∧
      Balanced E (dpScores pred dp) n s i (dpPosterior 1 m) p ∧
      ∀ α, 0 < α → IsConditional E (dpScores pred dp) n s i (dpPosterior α m) s1 p → α = 1 := by
  obtain ⟨hs, hh, hf⟩ := reaches_ok hfix hn hk hK hKn hi hs
  have hprod := fun α (hα : 0 < α) => dp_posterior_prod m hn hα
  obtain ⟨s1, p, hc, hb⟩ := dp_gibbs E pred hdp hk hn hm hi hs hh hf
  refine ⟨s1, p, hc, hb, ?_⟩
  intro α hα hcα
  obtain ⟨t1, q, hR, hlen, -, hall⟩ := conditional_of E (dpScores pred dp) hk hn hs hf hi (m := m)
    (by rw [hh]; exact hm)
  -- the same state and probabilities
  obtain ⟨x, hdet, hp⟩ := hc.computed
  have hts : t1 = s1 ∧ q = p := by
    obtain ⟨y, h1, h2⟩ := (hall (fun _ => 0) 0
      (fun K => Real.exp (∑ k ∈ Finset.range K, (dpScores pred dp).fresh (n - 1) k))
      (fun c => Real.exp (∑ k ∈ Finset.range c,
        if k = 0 then 0 else (dpScores pred dp).exist (n - 1) t1.clus.length k))
      (fun c => Real.exp_ne_zero _) (by simp) (by
        rw [Finset.sum_range_succ, Real.exp_add]; simp) (by
        intro c hc
        have : c ≠ 0 := by omega
        rw [Finset.sum_range_succ, Real.exp_add, if_neg this])).computed
    rw [hdet] at h1
    cases h1
    rw [hp] at h2
    cases h2
    exact ⟨rfl, rfl⟩
  obtain ⟨rfl, rfl⟩ := hts
  have hK1 := hR.pos hn
  obtain ⟨k, hkd⟩ : ∃ k, k = t1.clus.length := ⟨_, rfl⟩
  rw [← hkd] at hR hlen hK1
  have hcard : ∀ c ≤ k, (t1.alloc.set i c).toFinset.card = if c = k then k + 1 else k := by
    intro c hc; rw [labels_set hR hc, Finset.card_range]
  -- weights for two total masses
  have hw : ∀ c ≤ k, ∃ R, 0 < R ∧ ∀ β, 0 < β → dpPosterior β m (t1.alloc.set i c) =
      (pyD ⟨β, 0⟩ n)⁻¹ * pyA ⟨β, 0⟩ (if c = k then k + 1 else k) * R := by
    intro c hc
    refine ⟨∏ c' ∈ (t1.alloc.set i c).toFinset, blockW (pyB ⟨1, 0⟩) m
      (membersIn (Finset.range (t1.alloc.set i c).length) (t1.alloc.set i c) c'), ?_, ?_⟩
    · apply Finset.prod_pos
      intro c' _
      exact mul_pos (pyB_pos one_pos _) (Real.exp_pos _)
    · intro β hβ
      rw [hprod β hβ _ (by simp [hR.len]), prodPost, hcard c hc, mul_assoc]
  obtain ⟨R0, hR0, hw0⟩ := hw 0 (by omega)
  obtain ⟨Rk, hRk, hwk⟩ := hw k le_rfl
  have h0k : (0 : ℕ) ≠ k := by omega
  simp only [if_neg h0k, if_true] at hw0 hwk
  have hq0 : q[0]? = some (q[0]'(by omega)) := List.getElem?_eq_getElem (by omega)
  have hqk : q[k]? = some (q[k]'(by omega)) := List.getElem?_eq_getElem (by omega)
  obtain ⟨a, ha⟩ : ∃ a, a = q[0]'(by omega) := ⟨_, rfl⟩
  obtain ⟨b, hb'⟩ : ∃ b, b = q[k]'(by omega) := ⟨_, rfl⟩
  rw [← ha] at hq0
  rw [← hb'] at hqk
  have hapos := hc.pos a (List.mem_of_getElem? hq0)
  have hbpos := hc.pos b (List.mem_of_getElem? hqk)
  have c1 := hc.cond 0 a hq0
  have c2 := hc.cond k b hqk
  have c3 := hcα.cond 0 a hq0
  have c4 := hcα.cond k b hqk
  have hr1 : a * dpPosterior 1 m (t1.alloc.set i k) = b * dpPosterior 1 m (t1.alloc.set i 0) := by
    rw [← c1, ← c2]; ring
  have hr2 : a * dpPosterior α m (t1.alloc.set i k) = b * dpPosterior α m (t1.alloc.set i 0) := by
    rw [← c3, ← c4]; ring
  rw [hw0 1 one_pos, hwk 1 one_pos, pyA_succ ⟨1, 0⟩ hK1] at hr1
  rw [hw0 α hα, hwk α hα, pyA_succ ⟨α, 0⟩ hK1] at hr2
  have d1 := pyD_pos (st := ⟨1, 0⟩) (by norm_num) n
  have d2 := pyD_pos (st := ⟨α, 0⟩) (by simp only; linarith) n
  have a1 := pyA_pos (st := ⟨1, 0⟩) (by norm_num) le_rfl k
  have a2 := pyA_pos (st := ⟨α, 0⟩) (by simpa using hα) le_rfl k
  simp only [zero_mul, add_zero, mul_one] at hr1 hr2
  have e1 : a * Rk = b * R0 := by
    have : ((pyD ⟨1, 0⟩ n)⁻¹ * pyA ⟨1, 0⟩ k) * (a * Rk) =
        ((pyD ⟨1, 0⟩ n)⁻¹ * pyA ⟨1, 0⟩ k) * (b * R0) := by linear_combination hr1
    exact mul_left_cancel₀ (by positivity) this
  have e2 : α * (a * Rk) = b * R0 := by
    have : ((pyD ⟨α, 0⟩ n)⁻¹ * pyA ⟨α, 0⟩ k) * (α * (a * Rk)) =
        ((pyD ⟨α, 0⟩ n)⁻¹ * pyA ⟨α, 0⟩ k) * (b * R0) := by linear_combination hr2
    exact mul_left_cancel₀ (by positivity) this
  have : (α - 1) * (b * R0) = 0 := by rw [← e1]; linear_combination e2 - e1
  have h3 : b * R0 ≠ 0 := by positivity
  have := (mul_eq_zero.mp this).resolve_right h3
  linarith

/-- **C55, Dirichlet process, violation.** For every configured total mass other than one, in every
reachable state and for every row, the update is not the conditional distribution of the posterior
of the configured model. -/
theorem c55_dirichlet_violated (E : Env G H Θ) (hfix : ∀ h l r, E.hyperUpdate h l r = h)
    (pred : H → ℕ → ℝ) {prior : DPPrior} {dp : DPState} (hdp : DPRun prior dp)
    (hmass : dp.totalmass ≠ 1) (hk : E.kind ≠ .other) (K n : ℕ) (hn : 2 ≤ n) (hK : 0 < K)
    (hKn : K ≤ n) (h0 : H) (θ0 : Θ) (m : Finset ℕ → ℝ) (hm : MargLik E (dpScores pred dp) h0 m)
    (i : ℕ) (hi : i < n) (s : Alg G H Θ) (hs : Reaches E K n h0 θ0 i s) :
    ¬ ∃ s1 p, IsConditional E (dpScores pred dp) n s i (dpPosterior dp.totalmass m) s1 p := by
  rintro ⟨s1, p, h⟩
  obtain ⟨t1, q, hc, -, hα⟩ := c55_dirichlet_partial E hfix pred hdp hk K n hn hK hKn h0 θ0 m hm i
    hi s hs
  obtain ⟨x, h1, h2⟩ := h.computed
  obtain ⟨y, h3, h4⟩ := hc.computed
  rw [h1] at h3; cases h3
  rw [h2] at h4; cases h4
  exact hmass (hα _ hdp.pos.1 h)

example (y : ℕ → ℝ) (draw : NIG → ℕ → UniLS) (θ0 : UniLS) (zi : InitNoise)
    (o : Hier (ℝ × ℝ) NIG UniLS) (ho : o.saved = false) :
    ∃ s m, Reaches (nnigEnv y draw (fun h _ _ => h)) 1 3 ⟨0, 1, 2, 1⟩ θ0 0 s ∧
      ¬ ∃ s1 p, IsConditional (nnigEnv y draw (fun h _ _ => h))
        (dpScores (fun h x => nnigMargLpdf h (y x)) ⟨2, 0⟩) 3 s 0 (dpPosterior 2 m) s1 p := by
  obtain ⟨s, hs, -⟩ := reaches_example y draw θ0 zi o ho
  obtain ⟨m, hm, -⟩ := c83_nnig_marginal y draw (fun h _ _ => h)
    (dpScores (fun h x => nnigMargLpdf h (y x)) ⟨2, 0⟩).exist
    (dpScores (fun h x => nnigMargLpdf h (y x)) ⟨2, 0⟩).fresh ⟨0, 1, 2, 1⟩ (by norm_num)
    (by norm_num) (by norm_num)
  exact ⟨s, m, hs, c55_dirichlet_violated (nnigEnv y draw (fun h _ _ => h)) (fun _ _ _ => rfl)
    (fun h x => nnigMargLpdf h (y x)) (prior := .fixed 2) (dp := ⟨2, 0⟩)
    (.init (by norm_num [dpInit, dpFresh])) (by norm_num) (by simp [nnigEnv]) 1 3 (by omega)
    (by omega) (by omega) _ θ0 m hm 0 (by omega) s hs⟩

/-- The numbers that a mixture of finite mixtures hands to the sampler. -/
noncomputable def mfmScores (pred : H → ℕ → ℝ) (coef : ℕ → ℕ → ℝ) (st : MFMState) : Scores H :=
  ⟨pred, fun n k c => match mfmLogMassExisting coef st n k true c.toNat with
      | .ok x => x.1.toReal
      | .error _ => 0,
    fun n k => match mfmLogMassNew coef st n k true with
      | .ok x => x.1.toReal
      | .error _ => 0⟩

/-- Unnormalized posterior probability under the prior on partitions of a mixture of finite
mixtures: `V(k)` for the number of clusters, a rising factorial of `γ` for each cluster. -/
noncomputable def mfmPosterior (γ : ℝ) (V : ℕ → ℝ) (m : Finset ℕ → ℝ) (al : List ℕ) : ℝ :=
  V al.toFinset.card * (∏ c ∈ al.toFinset, ∏ j ∈ Finset.range (al.count c), (γ + j)) *
    Real.exp (∑ c ∈ al.toFinset, m (membersIn (Finset.range al.length) al c))

theorem reduced_collision {n i K : ℕ} {al : List ℕ} (h : Reduced n i K al) {x y : ℕ} (hx : x < n)
    (hy : y < n) (hxi : x ≠ i) (hyi : y ≠ i) (hxy : x ≠ y) (ht : together al x y) : K < n - 1 := by
  have hsub : Finset.range K ⊆ (((Finset.range n).erase i).erase x).image (fun z => al.getD z 0) := by
    intro c hc
    obtain ⟨z, hz, hzi, e⟩ := h.used c (Finset.mem_range.mp hc)
    rw [Finset.mem_image]
    by_cases hzx : z = x
    · refine ⟨y, by simp [hy, hyi, Ne.symm hxy], ?_⟩
      subst hzx
      unfold together at ht
      rw [e] at ht
      simp [List.getD_eq_getElem?_getD, ← ht]
    · exact ⟨z, by simp [hz, hzi, hzx], by simp [List.getD_eq_getElem?_getD, e]⟩
  have h1 := Finset.card_le_card hsub
  have h2 := Finset.card_image_le (s := ((Finset.range n).erase i).erase x)
    (f := fun z => al.getD z 0)
  have h3 : (((Finset.range n).erase i).erase x).card = n - 1 - 1 := by
    rw [Finset.card_erase_of_mem (by simp [hx, hxi]), Finset.card_erase_of_mem (by simp [h.mem]),
      Finset.card_range]
  rw [Finset.card_range] at h1
  have : 2 ≤ n := by
    rcases Nat.lt_or_ge n 2 with hlt | hge
    · have := h.mem; omega
    · exact hge
  have hn3 : 3 ≤ n := by
    by_contra hlt
    have := h.mem
    omega
  omega

/-- **C55, mixture of finite mixtures.** In every reachable state in which two rows other than `i`
share a cluster, the update is the conditional distribution, and satisfies detailed balance, for the
posterior whose coefficients are the ones the code computes (a truncated series, see C28). Missing:
states in which all other rows are alone, where the code reads out of bounds (C28), and the exact
coefficients. -/
theorem c55_finite_mixture_partial (E : Env G H Θ) (hfix : ∀ h l r, E.hyperUpdate h l r = h)
    (pred : H → ℕ → ℝ) {γ lam C : ℝ} (hγ : 0 < γ) (hl : 0 < lam) {coef : ℕ → ℕ → ℝ}
    (hcoef : IsCoef γ lam C coef) (K n : ℕ) {st : MFMState} (hst : MFMRun coef γ (n - 1) st)
    (hk : E.kind ≠ .other) (hn : 2 ≤ n) (hK : 0 < K) (hKn : K ≤ n) (h0 : H) (θ0 : Θ)
    (m : Finset ℕ → ℝ) (hm : MargLik E (mfmScores pred coef st) h0 m) (i : ℕ) (hi : i < n)
    (s : Alg G H Θ) (hs : Reaches E K n h0 θ0 i s) (x y : ℕ) (hx : x < n) (hy : y < n)
    (hxi : x ≠ i) (hyi : y ≠ i) (hxy : x ≠ y) (htog : together s.alloc x y) :
    ∃ s1 p, IsConditional E (mfmScores pred coef st) n s i
        (mfmPosterior γ (fun k => coef k n) m) s1 p ∧
      Balanced E (mfmScores pred coef st) n s i (mfmPosterior γ (fun k => coef k n) m) p := by
  obtain ⟨hs, hh, hf⟩ := reaches_ok hfix hn hk hK hKn hi hs
  obtain ⟨d1, cO, o, hdet, hd, -⟩ := detach_ok (upd := true) (fun _ => hk) hs.cons.on
    (Finset.mem_range.mpr hi)
  have hR := reduced_of hi hs.cons.len hd hs.noEmpty
  have hKlt : d1.clus.length < n - 1 := reduced_collision hR hx hy hxi hyi hxy
    ((hd.co x (by simp [hx, hxi]) y (by simp [hy, hyi])).mpr htog)
  have hK1 := hR.pos hn
  obtain ⟨hg, htab⟩ := hst.inv
  obtain ⟨s₁, s₂, g1, g2, g3, -⟩ := getV_two htab (show d1.clus.length + 1 ≤ n - 1 by omega)
  have hn1 : n - 1 + 1 = n := by omega
  rw [hn1] at g1 g2
  have hV : ∀ t, 1 ≤ t → 0 < coef t n := fun t ht => hcoef.pos hγ hl ht (by omega)
  have hBpos : ∀ c : ℕ, 0 < ∏ j ∈ Finset.range c, (γ + j) := fun c =>
    Finset.prod_pos fun j _ => by positivity
  refine gibbs_all E _ hk hn hs hf hi (m := m) (by rw [hh]; exact hm) (κ := 1)
    (A := fun k => coef k n) (B := fun c => ∏ j ∈ Finset.range c, (γ + j))
    (fun c => (hBpos c).ne') ?_ ?_ d1.clus.length ?_ ?_ ?_
  · intro al hal
    rw [mfmPosterior, prodPost, one_mul, mul_assoc, Real.exp_sum, ← Finset.prod_mul_distrib]
    congr 1
    apply Finset.prod_congr rfl
    intro c _
    rw [blockW, count_eq_card]
  · intro al hal
    have : 1 ≤ al.toFinset.card := by
      apply Finset.card_pos.mpr
      obtain ⟨z, hz⟩ := List.exists_mem_of_length_pos (show 0 < al.length by omega)
      exact ⟨z, List.mem_toFinset.mpr hz⟩
    exact mul_pos (mul_pos (hV _ this) (Finset.prod_pos fun c _ => hBpos _)) (Real.exp_pos _)
  · intro s1 x h
    rw [hdet] at h; cases h; rfl
  · intro _
    have v1 := hV d1.clus.length hK1
    have v2 := hV (d1.clus.length + 1) (by omega)
    have hp : 0 < coef (d1.clus.length + 1) n / coef d1.clus.length n * γ := by positivity
    have e : (mfmScores pred coef st).fresh (n - 1) d1.clus.length =
        Real.log (coef (d1.clus.length + 1) n / coef d1.clus.length n * γ) := by
      simp only [mfmScores, mfmLogMassNew, g1, ok_bind, g2, g3, hg, if_true]
      rw [stdLog, if_neg hp.ne', EReal.toReal_coe]
    rw [e, Real.exp_log hp]
    simp only [Finset.prod_range_one, Nat.cast_zero, add_zero]
    field_simp
  · intro c hc
    have hp : 0 < (c : ℝ) + γ := by positivity
    have e : (mfmScores pred coef st).exist (n - 1) d1.clus.length c = Real.log (c + γ) := by
      simp only [mfmScores, mfmLogMassExisting, g1, ok_bind, g2, g3, hg, if_true, Int.toNat_natCast]
      rw [stdLog, if_neg hp.ne', EReal.toReal_coe]
    rw [e, Real.exp_log hp, Finset.prod_range_succ, add_comm]

example (y : ℕ → ℝ) (draw : NIG → ℕ → UniLS) (θ0 : UniLS) (zi : InitNoise)
    (o : Hier (ℝ × ℝ) NIG UniLS) (ho : o.saved = false) :
    ∃ s coef m s1 p, IsCoef 1 1 0 coef ∧
      Reaches (nnigEnv y draw (fun h _ _ => h)) 1 3 ⟨0, 1, 2, 1⟩ θ0 0 s ∧
      IsConditional (nnigEnv y draw (fun h _ _ => h))
        (mfmScores (fun h x => nnigMargLpdf h (y x)) coef ⟨1, none⟩) 3 s 0
        (mfmPosterior 1 (fun k => coef k 3) m) s1 p := by
  obtain ⟨coef, hcoef, -⟩ := c28_coefficients_exist (γ := 1) (lam := 1) one_pos one_pos 0
  obtain ⟨s, e, hs, hlen, -⟩ := initAlloc_ok (E := nnigEnv y draw (fun h _ _ => h)) (upd := true)
    (K := 1) (n := 3) (h0 := ⟨0, 1, 2, 1⟩) (θ0 := θ0) zi (o := o) (by simp [CanSave, nnigEnv])
    one_pos (by omega) (by simp [Hier.CacheOk, ho])
  have hr : Reaches (nnigEnv y draw (fun h _ _ => h)) 1 3 ⟨0, 1, 2, 1⟩ θ0 0 s :=
    ⟨zi, o, s, s, [], fun _ => (0, 0), ho, e, rfl, rfl⟩
  obtain ⟨m, hm, -⟩ := c83_nnig_marginal y draw (fun h _ _ => h)
    (mfmScores (fun h x => nnigMargLpdf h (y x)) coef ⟨1, none⟩).exist
    (mfmScores (fun h x => nnigMargLpdf h (y x)) coef ⟨1, none⟩).fresh ⟨0, 1, 2, 1⟩ (by norm_num)
    (by norm_num) (by norm_num)
  have htog : together s.alloc 1 2 := by
    obtain ⟨a, ha, hal⟩ := hs.cons.on.labelled 1 (by simp)
    obtain ⟨b, hb, hbl⟩ := hs.cons.on.labelled 2 (by simp)
    have : a = b := by omega
    rw [together, ha, hb, this]
  obtain ⟨s1, p, hc, -⟩ := c55_finite_mixture_partial (nnigEnv y draw (fun h _ _ => h))
    (fun _ _ _ => rfl) (fun h x => nnigMargLpdf h (y x)) (γ := 1) (lam := 1) (C := 0) one_pos
    one_pos hcoef 1 3 (st := ⟨1, none⟩) MFMRun.fresh (by simp [nnigEnv]) (by omega) (by omega)
    (by omega) _ θ0 m hm 0 (by omega) s hr 1 2 (by omega) (by omega) (by omega) (by omega)
    (by omega) htog
  exact ⟨s, coef, m, s1, p, hcoef, hr, hc⟩

end Bayesmix.Gibbs
