import Verif.Mixing.LogitFlow

/-!
# C149: the update of the logit stick-breaking coefficients and their distribution
-/

namespace Bayesmix.Mixing

open Bayesmix Bayesmix.Hierarchies MeasureTheory ProbabilityTheory ENNReal

variable {k d : ℕ}

/-! ### Statements -/

/-- Distribution of the coefficients given the labels: the columns are independent, each with the
density of its full conditional (C66 relates it to the weights). -/
noncomputable def lsbTarget (k : ℕ) (mean : Fin d → ℝ) (P : Matrix (Fin d) (Fin d) ℝ)
    (data : List (LogitDatum d)) : Measure (Fin k → Fin d → ℝ) :=
  Measure.pi fun h : Fin k => logDensity (fullCond mean P data h)

/-- Coefficients from their distribution and independent random numbers. -/
noncomputable def lsbInput (k : ℕ) (mean : Fin d → ℝ) (P : Matrix (Fin d) (Fin d) ℝ)
    (data : List (LogitDatum d)) : Measure ((Fin k → Fin d → ℝ) × (Fin k → LsbDraw d)) :=
  (lsbTarget k mean P data).prod (Measure.pi fun _ => lsbDrawLaw d)

/-- If the coefficients have their distribution given the labels, they have it after an update. -/
def LsbKeeps (k : ℕ) (mean : Fin d → ℝ) (P : Matrix (Fin d) (Fin d) ℝ) (step : ℝ)
    (data : List (LogitDatum d)) : Prop :=
  (lsbInput k mean P data).map (fun x => lsbNew mean P step data x.1 x.2) =
    lsbTarget k mean P data

/-- The same for one column. -/
def LsbColumnKeeps (mean : Fin d → ℝ) (P : Matrix (Fin d) (Fin d) ℝ) (step : ℝ)
    (data : List (LogitDatum d)) (h : Fin k) : Prop :=
  (lsbInput k mean P data).map (fun x => lsbNew mean P step data x.1 x.2 h) =
    (lsbTarget k mean P data).map (fun C => C h)

/-! ### Proofs -/

instance : IsProbabilityMeasure (lsbDrawLaw d) := by
  haveI : IsProbabilityMeasure (volume.restrict (Set.Ioo (0 : ℝ) 1)) := ⟨by simp⟩
  unfold lsbDrawLaw
  infer_instance

theorem fullCond_empty (mean : Fin d → ℝ) (P : Matrix (Fin d) (Fin d) ℝ)
    {data : List (LogitDatum d)} {clust : ℕ} (hd : ∀ x ∈ data, x.2 < clust) (c : Fin d → ℝ) :
    fullCond mean P data clust c = -0.5 * ((c - mean) ⬝ᵥ (P.mulVec (c - mean))) := by
  unfold fullCond
  generalize -0.5 * ((c - mean) ⬝ᵥ (P.mulVec (c - mean))) = a
  induction data with
  | nil => rfl
  | cons x xs ih =>
    rw [List.foldl_cons]
    have : fullCondStep c clust a x = a := by
      unfold fullCondStep
      rw [if_neg (not_le.mpr (hd x (by simp)))]
    rw [this]
    exact ih fun y hy => hd y (by simp [hy])

theorem gradFullCond_empty (mean : Fin d → ℝ) (P : Matrix (Fin d) (Fin d) ℝ)
    {data : List (LogitDatum d)} {clust : ℕ} (hd : ∀ x ∈ data, x.2 < clust) (c : Fin d → ℝ) :
    gradFullCond mean P data clust c = P.mulVec (mean - c) := by
  unfold gradFullCond
  generalize P.mulVec (mean - c) = a
  induction data with
  | nil => rfl
  | cons x xs ih =>
    rw [List.foldl_cons]
    have : gradStep c clust a x = a := by
      unfold gradStep
      rw [if_neg (not_le.mpr (hd x (by simp)))]
    rw [this]
    exact ih fun y hy => hd y (by simp [hy])

theorem fullCond_le (mean : Fin d → ℝ) (P : Matrix (Fin d) (Fin d) ℝ)
    (data : List (LogitDatum d)) (clust : ℕ) (c : Fin d → ℝ) :
    fullCond mean P data clust c ≤ -0.5 * ((c - mean) ⬝ᵥ (P.mulVec (c - mean))) := by
  unfold fullCond
  generalize -0.5 * ((c - mean) ⬝ᵥ (P.mulVec (c - mean))) = a
  induction data generalizing a with
  | nil => exact le_rfl
  | cons x xs ih =>
    rw [List.foldl_cons]
    refine (ih _).trans ?_
    unfold fullCondStep
    have h1 := sigmoid_pos (x.1 ⬝ᵥ c)
    have h2 := sigmoid_lt_one (x.1 ⬝ᵥ c)
    have h3 : Real.log (sigmoid (x.1 ⬝ᵥ c)) ≤ 0 := Real.log_nonpos h1.le h2.le
    have h4 : Real.log (1.0 - sigmoid (x.1 ⬝ᵥ c)) ≤ 0 :=
      Real.log_nonpos (by norm_num; linarith) (by norm_num; linarith)
    split_ifs with hx hc
    · norm_num at *; linarith
    · norm_num at *; linarith
    · exact le_rfl

theorem quad_iso (mean : Fin d → ℝ) (p : ℝ) (c : Fin d → ℝ) :
    (c - mean) ⬝ᵥ ((p • (1 : Matrix (Fin d) (Fin d) ℝ)).mulVec (c - mean)) =
      p * ∑ i, (c i - mean i) ^ 2 := by
  rw [Matrix.smul_mulVec, Matrix.one_mulVec, dotProduct_smul, smul_eq_mul]
  unfold dotProduct
  congr 1
  refine Finset.sum_congr rfl fun i _ => ?_
  simp only [Pi.sub_apply]
  ring

theorem fullCond_finite (mean : Fin d → ℝ) {p : ℝ} (hp : 0 < p)
    (data : List (LogitDatum d)) (clust : ℕ) :
    logDensity (fullCond mean (p • 1) data clust) Set.univ ≠ ∞ := by
  obtain ⟨s, hs⟩ : ∃ s, s = 1 / Real.sqrt p := ⟨_, rfl⟩
  have hs0 : 0 < s := by rw [hs]; positivity
  have hs2 : 1 / s ^ 2 = p := by rw [hs, div_pow, Real.sq_sqrt hp.le]; field_simp
  have hprob := gaussLq_one (m := fun _ => mean) hs0 (0 : Fin d → ℝ)
  obtain ⟨K, hK⟩ : ∃ K : ℝ, K = ∑ _i : Fin d, ((1 / 2) * Real.log (2 * Real.pi) + Real.log s) :=
    ⟨_, rfl⟩
  have hq : ∀ c, -0.5 * ((c - mean) ⬝ᵥ ((p • (1 : Matrix (Fin d) (Fin d) ℝ)).mulVec (c - mean))) =
      K + gaussLq (fun _ => mean) s 0 c := by
    intro c
    rw [quad_iso, hK]
    unfold gaussLq normalLpdf
    rw [← Finset.sum_add_distrib, Finset.mul_sum, Finset.mul_sum]
    refine Finset.sum_congr rfl fun i _ => ?_
    rw [div_pow, div_eq_mul_one_div _ (s ^ 2), hs2]
    norm_num
    ring
  have hle : ∀ c, ENNReal.ofReal (Real.exp (fullCond mean (p • 1) data clust c)) ≤
      ENNReal.ofReal (Real.exp K) * mhW (gaussLq (fun _ => mean) s) 0 c := by
    intro c
    unfold mhW
    rw [← ENNReal.ofReal_mul (Real.exp_pos _).le, ← Real.exp_add, ← hq c]
    exact ENNReal.ofReal_le_ofReal (Real.exp_le_exp.mpr (fullCond_le _ _ _ _ _))
  unfold logDensity
  rw [withDensity_apply _ MeasurableSet.univ, Measure.restrict_univ]
  refine ne_top_of_le_ne_top ?_ (lintegral_mono hle)
  rw [lintegral_const_mul' _ _ ofReal_ne_top, hprob, mul_one]
  exact ofReal_ne_top

theorem logDensity_ne_zero {f : (Fin d → ℝ) → ℝ} (hf : Measurable f) :
    logDensity f Set.univ ≠ 0 := by
  unfold logDensity
  rw [withDensity_apply _ MeasurableSet.univ, Measure.restrict_univ]
  intro h
  have hm : Measurable fun x => ENNReal.ofReal (Real.exp (f x)) := by fun_prop
  rw [lintegral_eq_zero_iff hm] at h
  obtain ⟨x, hx⟩ := h.exists
  exact (ENNReal.ofReal_pos.mpr (Real.exp_pos _)).ne' hx

/-- The law of a column only depends on the column. -/
theorem columnKeeps_iff (mean : Fin d → ℝ) {p : ℝ} (hp : 0 < p) {step : ℝ} (hs : 0 < step)
    (data : List (LogitDatum d)) (h : Fin k) :
    LsbColumnKeeps mean (p • 1) step data h ↔
      ((logDensity (fullCond mean (p • 1) data h)).prod (lsbDrawLaw d)).map
        (fun x => colStep step (fullCond mean (p • 1) data h) (gradFullCond mean (p • 1) data h)
          x.1 x.2) = logDensity (fullCond mean (p • 1) data h) := by
  obtain ⟨π, hπ⟩ : ∃ π : Fin k → Measure (Fin d → ℝ),
    π = fun j : Fin k => logDensity (fullCond mean (p • 1) data j) := ⟨_, rfl⟩
  haveI hfin : ∀ j, IsFiniteMeasure (π j) := fun j => by
    rw [hπ]; exact ⟨lt_top_iff_ne_top.mpr (fullCond_finite mean hp data j)⟩
  have h0 : ∀ j, π j Set.univ ≠ 0 := fun j => by
    rw [hπ]; exact logDensity_ne_zero (fullCond_meas _ _ _ _)
  have hst := colStep_meas hs (fullCond_meas mean (p • 1) data h) (gradFullCond_meas mean (p • 1) data h)
  obtain ⟨K, hK⟩ : ∃ K : ℝ≥0∞, K = ∏ j ∈ Finset.univ.erase h, π j Set.univ := ⟨_, rfl⟩
  have hK0 : K ≠ 0 := by rw [hK]; exact Finset.prod_ne_zero_iff.mpr fun j _ => h0 j
  have hKt : K ≠ ∞ := by rw [hK]; exact ENNReal.prod_ne_top fun j _ => measure_ne_top _ _
  have e1 : (lsbTarget k mean (p • 1) data).map (fun C => C h) = K • π h := by
    unfold lsbTarget
    rw [← hπ, hK]
    exact Measure.pi_map_eval π h
  have mp := measurePreserving_arrowProdEquivProdArrow (Fin d → ℝ) (LsbDraw d) (Fin k) π
    (fun _ => lsbDrawLaw d)
  have e2 : (lsbInput k mean (p • 1) data).map (fun x => lsbNew mean (p • 1) step data x.1 x.2 h) =
      K • ((π h).prod (lsbDrawLaw d)).map (fun x => colStep step (fullCond mean (p • 1) data h)
        (gradFullCond mean (p • 1) data h) x.1 x.2) := by
    simp only [lsbNew_eq mean (p • 1) hs data]
    unfold lsbInput lsbTarget
    rw [← hπ, ← mp.map_eq, Measure.map_map]
    · have : (fun x : (Fin k → Fin d → ℝ) × (Fin k → LsbDraw d) =>
          colStep step (fullCond mean (p • 1) data h) (gradFullCond mean (p • 1) data h)
            (x.1 h) (x.2 h)) ∘ (MeasurableEquiv.arrowProdEquivProdArrow (Fin d → ℝ) (LsbDraw d) (Fin k)) =
          (fun x : (Fin d → ℝ) × LsbDraw d => colStep step (fullCond mean (p • 1) data h)
            (gradFullCond mean (p • 1) data h) x.1 x.2) ∘ Function.eval h := rfl
      rw [this, ← Measure.map_map hst (measurable_pi_apply h),
        Measure.pi_map_eval (fun i => (π i).prod (lsbDrawLaw d)) h, Measure.map_smul]
      congr 1
      rw [hK]
      refine Finset.prod_congr rfl fun j _ => ?_
      rw [← Set.univ_prod_univ, Measure.prod_prod, measure_univ (μ := lsbDrawLaw d), mul_one]
    · have hev : Measurable fun x : (Fin k → Fin d → ℝ) × (Fin k → LsbDraw d) => (x.1 h, x.2 h) :=
        ((measurable_pi_apply h).comp measurable_fst).prodMk
          ((measurable_pi_apply h).comp measurable_snd)
      exact hst.comp hev
    · exact mp.measurable
  unfold LsbColumnKeeps
  rw [e1, e2]
  have e3 : π h = logDensity (fullCond mean (p • 1) data h) := by rw [hπ]
  rw [e3]
  constructor
  · intro hh
    ext A _
    have := congrArg (fun μ => μ A) hh
    simp only [Measure.smul_apply, smul_eq_mul] at this
    exact (ENNReal.mul_right_inj hK0 hKt).mp this
  · intro hh
    rw [hh]

theorem colFlow_iso (mean : Fin d → ℝ) {p step : ℝ} (hs : 0 < step)
    {data : List (LogitDatum d)} {clust : ℕ} (hd : ∀ x ∈ data, x.2 < clust) :
    ∃ K : ℝ, 0 < K ∧ ∀ x y, colFlow step (fullCond mean (p • 1) data clust)
      (gradFullCond mean (p • 1) data clust) (x + mean) (y + mean) =
        ENNReal.ofReal K * ENNReal.ofReal (flow (step * p) p (propVar step) x y) := by
  have hv := propVar_pos hs
  obtain ⟨K, hK⟩ : ∃ K, K = ∑ _i : Fin d, (-(1 / 2) * Real.log (2 * Real.pi) -
    Real.log (Real.sqrt (propVar step))) := ⟨_, rfl⟩
  refine ⟨Real.exp K, Real.exp_pos _, fun x y => ?_⟩
  rw [← ENNReal.ofReal_mul (Real.exp_pos _).le]
  unfold colFlow flow
  rw [← Real.exp_add]
  congr 2
  have hf : ∀ x, fullCond mean (p • 1) data clust (x + mean) = -(p * nsq x) / 2 := by
    intro x
    rw [fullCond_empty _ _ hd, quad_iso]
    unfold nsq
    simp only [Pi.add_apply, add_sub_cancel_right]
    norm_num
    ring
  have hq : ∀ x y, colLq step (gradFullCond mean (p • 1) data clust) (x + mean)
      (y + mean) = K - nsq (y - (1 - step * p) • x) / propVar step / 2 := by
    intro x y
    unfold colLq gaussLq normalLpdf propMean nsq
    rw [gradFullCond_empty _ _ hd, Matrix.smul_mulVec, Matrix.one_mulVec, hK, Finset.sum_div,
      Finset.sum_div, ← Finset.sum_sub_distrib]
    refine Finset.sum_congr rfl fun i _ => ?_
    simp only [Pi.add_apply, Pi.smul_apply, Pi.sub_apply, smul_eq_mul, div_pow, Real.sq_sqrt hv.le]
    ring
  have e : ∀ M N : ℝ, K + -(max M N) / 2 = min (K - M / 2) (K - N / 2) := by
    intro M N
    rcases le_total M N with h | h
    · rw [max_eq_right h, min_eq_right (by linarith)]; ring
    · rw [max_eq_left h, min_eq_left (by linarith)]; ring
  have hx : x - (1 - step * p) • x = (step * p) • x := by
    rw [sub_smul, one_smul]; abel
  rw [hf, hf, hq, hq, e, hx]
  congr 1 <;> ring

theorem flows_to_real {F : (Fin d → ℝ) → (Fin d → ℝ) → ℝ≥0∞} (hF : Measurable (Function.uncurry F))
    {G : (Fin d → ℝ) → (Fin d → ℝ) → ℝ≥0∞} {m : Fin d → ℝ} {K : ℝ} (hK : 0 < K)
    (hFG : ∀ x y, F (x + m) (y + m) = ENNReal.ofReal K * G x y)
    (h : ∀ᵐ q, ∫⁻ c, F c q = ∫⁻ c, F q c) : ∀ᵐ y, ∫⁻ x, G x y = ∫⁻ x, G y x := by
  have hT := measurePreserving_add_right (volume : Measure (Fin d → ℝ)) m
  have hK0 : ENNReal.ofReal K ≠ 0 := (ENNReal.ofReal_pos.mpr hK).ne'
  filter_upwards [hT.quasiMeasurePreserving.ae h] with y hy
  have m1 : Measurable fun c => F c (y + m) := hF.comp (measurable_id.prodMk measurable_const)
  have m2 : Measurable fun c => F (y + m) c := hF.comp measurable_prodMk_left
  rw [← hT.lintegral_comp m1, ← hT.lintegral_comp m2] at hy
  simp only [hFG] at hy
  rw [lintegral_const_mul' _ _ ofReal_ne_top, lintegral_const_mul' _ _ ofReal_ne_top] at hy
  exact (ENNReal.mul_right_inj hK0 ofReal_ne_top).mp hy

theorem column_kept (mean : Fin d → ℝ) {p : ℝ} (hp : 0 < p)
    {step : ℝ} (hs : step * p = 1) (data : List (LogitDatum d)) (h : Fin k)
    (hd : ∀ x ∈ data, x.2 < (h : ℕ)) : LsbColumnKeeps mean (p • 1) step data h := by
  have hs0 : 0 < step := pos_of_mul_pos_left (hs ▸ one_pos) hp.le
  rw [columnKeeps_iff mean hp hs0]
  refine column_keeps_of_ratio hs0 (fullCond_meas _ _ _ _) (gradFullCond_meas _ _ _ _)
    (fullCond_finite mean hp data h) fun c q => ?_
  have hm : ∀ c, propMean step (gradFullCond mean (p • 1) data h) c = mean := by
    intro c
    unfold propMean
    rw [gradFullCond_empty _ _ hd, Matrix.smul_mulVec, Matrix.one_mulVec, smul_smul, hs, one_smul]
    abel
  unfold colLq gaussLq
  rw [hm, hm]

/-! ### The property -/

/-- **C149, no faults.** With a positive step the update ends and counts one iteration. In every
column it compares the uniform number with the exponential of a log ratio `r`, and leaves the
proposal and a count that is one higher, or the old value and count. The ratio is the difference of
the full conditionals and of the densities, around the mean of the proposal, of the old value and
the proposal. -/
theorem c149_never_fails (mean : Fin d → ℝ) (P : Matrix (Fin d) (Fin d) ℝ) {step : ℝ}
    (hs : 0 < step) (data : List (LogitDatum d)) (draws : Fin k → LsbDraw d) (s : LsbState k d) :
    ∃ s', lsbUpdate mean P step data draws s = .ok s' ∧ s'.nIter = s.nIter + 1 ∧
      ∀ h : Fin k, ∃ prop : Fin d → ℝ, ∃ m : Fin d → ℝ, ∃ r : ℝ,
        (∀ i, m i = s.coeffs h i + step * gradFullCond mean P data h (s.coeffs h) i) ∧
        (∀ i, prop i = m i + Real.sqrt (Real.sqrt (2 * step)) * (draws h).1 i) ∧
        r = fullCond mean P data h prop - fullCond mean P data h (s.coeffs h) +
          (∑ i, (prop i - m i) ^ 2 - ∑ i, (s.coeffs h i - m i) ^ 2) / (2 * Real.sqrt (2 * step)) ∧
        (s'.coeffs h, s'.accepted h) = if (draws h).2 < Real.exp r then
          (prop, s.accepted h + 1) else (s.coeffs h, s.accepted h) := by
  obtain ⟨s', e', n', m', h'⟩ := lsbFold mean P hs data draws (List.finRange k)
    (List.nodup_finRange k) { s with nIter := s.nIter + 1 }
  refine ⟨s', e', n', fun h => ?_⟩
  have hv : propVar step = Real.sqrt (2 * step) := by unfold propVar; norm_num
  refine ⟨_, _, logAccept step (fullCond mean P data h) (gradFullCond mean P data h) (s.coeffs h)
    (fun i => propMean step (gradFullCond mean P data h) (s.coeffs h) i +
      Real.sqrt (propVar step) * (draws h).1 i), fun i => rfl, fun i => rfl, ?_, ?_⟩
  · have hpm : ∀ i, propMean step (gradFullCond mean P data h) (s.coeffs h) i =
        s.coeffs h i + step * gradFullCond mean P data h (s.coeffs h) i := fun i => rfl
    unfold logAccept
    simp only [hv]
    unfold dotProduct
    simp only [Pi.sub_apply, hpm]
    have hp := Real.sqrt_pos.mpr (show 0 < 2 * step by linarith)
    simp only [← pow_two]
    rw [sub_eq_add_neg]
    congr 1
    norm_num
    field_simp
  · rw [h' h, m' h]
    unfold colStep
    simp only [List.mem_finRange, true_and, if_true]
    have hpm : ∀ i, propMean step (gradFullCond mean P data h) (s.coeffs h) i =
        s.coeffs h i + step * gradFullCond mean P data h (s.coeffs h) i := fun i => rfl
    simp only [hpm, hv]
    split_ifs <;> rfl

example : (0 : ℝ) < 1 / 2 ∧ ∃ s', lsbUpdate (k := 2) (fun _ : Fin 1 => 0) 1 (1 / 2)
    [(fun _ => 1, 0)] (fun _ => (fun _ => 1, 1 / 2)) ⟨fun _ _ => 3, fun _ => 0, 4⟩ = .ok s' ∧
    s'.nIter = 5 := by
  obtain ⟨s', h, h', -⟩ := c149_never_fails (k := 2) (fun _ : Fin 1 => 0) 1
    (show (0 : ℝ) < 1 / 2 by norm_num) [(fun _ => 1, 0)] (fun _ => (fun _ => 1, 1 / 2))
    ⟨fun _ _ => 3, fun _ => 0, 4⟩
  exact ⟨by norm_num, s', h, h'⟩

/-- **C149, columns without rows.** If no row has the label of the column or a later one, and the
coefficients, at least one of them, have independent normal priors with variance `1 / p`, the update
keeps the distribution of the column exactly if the step is the prior variance. -/
theorem c149_empty_column (hd0 : 0 < d) (mean : Fin d → ℝ) {p : ℝ} (hp : 0 < p) {step : ℝ}
    (hs : 0 < step) (data : List (LogitDatum d)) (h : Fin k) (hd : ∀ x ∈ data, x.2 < (h : ℕ)) :
    LsbColumnKeeps mean (p • 1) step data h ↔ step = 1 / p := by
  have hfm := fullCond_meas mean (p • 1) data h
  have hgm := gradFullCond_meas mean (p • 1) data h
  constructor
  · intro hk
    rw [columnKeeps_iff mean hp hs, column_keeps_iff hs hfm hgm (fullCond_finite mean hp data h)] at hk
    obtain ⟨K, hK, hflow⟩ := colFlow_iso mean (p := p) hs hd
    have ha : step * p = 1 := flow_eq_one hd0 (mul_pos hs hp) hp (propVar_pos hs)
      (flows_to_real (colFlow_meas (step := step) hfm hgm) hK hflow hk)
    rw [eq_div_iff hp.ne', ha]
  · intro e
    refine column_kept mean hp ?_ data h hd
    rw [e]
    field_simp

/-- With a standard normal prior, step one half and three components, the coefficients of the second
column do not keep their distribution if all rows are in the first component. -/
example : ¬ LsbColumnKeeps (k := 2) (fun _ : Fin 3 => 0) ((1 : ℝ) • 1) (1 / 2)
    [(fun _ => 1, 0), (fun _ => -2, 0)] 1 := by
  rw [c149_empty_column (by norm_num) (fun _ => 0) one_pos (by norm_num) _ 1 (fun x hx => by
    simp only [List.mem_cons, List.not_mem_nil, or_false] at hx
    rcases hx with rfl | rfl <;> decide)]
  norm_num

/-- **C149 violated.** The update does not keep the distribution of the coefficients given the labels
if they have independent normal priors with variance `1 / p`, some column has no rows and the step is
another. -/
theorem c149_update_violated (hd0 : 0 < d) (mean : Fin d → ℝ) {p : ℝ} (hp : 0 < p) {step : ℝ}
    (hs : 0 < step) (hne : step ≠ 1 / p) (data : List (LogitDatum d)) (h : Fin k)
    (hd : ∀ x ∈ data, x.2 < (h : ℕ)) : ¬ LsbKeeps k mean (p • 1) step data := by
  intro hk
  refine hne ((c149_empty_column hd0 mean hp hs data h hd).mp ?_)
  unfold LsbColumnKeeps
  unfold LsbKeeps at hk
  rw [← hk, Measure.map_map (measurable_pi_apply h)]
  · rfl
  · simp only [lsbNew_eq mean (p • 1) hs data]
    refine measurable_pi_lambda _ fun j => ?_
    have hst := colStep_meas hs (fullCond_meas mean (p • 1) data j)
      (gradFullCond_meas mean (p • 1) data j)
    have hev : Measurable fun x : (Fin k → Fin d → ℝ) × (Fin k → LsbDraw d) => (x.1 j, x.2 j) :=
      ((measurable_pi_apply j).comp measurable_fst).prodMk
        ((measurable_pi_apply j).comp measurable_snd)
    exact hst.comp hev

/-- The condition on the labels holds for the second of two columns if all rows are in the first
component. -/
example : (0 : ℝ) < 1 ∧ (0 : ℝ) < 1 / 2 ∧ (1 / 2 : ℝ) ≠ 1 / 1 ∧
    ∀ x ∈ ([(fun _ => 1, 0), (fun _ => -2, 0)] : List (LogitDatum 2)),
      x.2 < ((1 : Fin 2) : ℕ) := by
  refine ⟨by norm_num, by norm_num, by norm_num, fun x hx => ?_⟩
  simp only [List.mem_cons, List.not_mem_nil, or_false] at hx
  rcases hx with rfl | rfl <;> decide

end Bayesmix.Mixing
