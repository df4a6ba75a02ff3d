import Verif.Hier.Serial
import Verif.Utils.Props

/-!
# C41: cluster states survive serialization
-/

namespace Bayesmix.Hierarchies

open Utils

/-- Matrices the samplers store: never assigned, or with rows and columns. -/
def ShapeOK (m : Mat ℝ) : Prop := m.WF ∧ (0 < m.rows ∧ 0 < m.cols ∨ m = ⟨0, 0, []⟩)

theorem ShapeOK.roundtrip {m : Mat ℝ} (h : ShapeOK m) : matToEigen (matToProto m) = .ok m := by
  rcases h with ⟨hwf, ⟨h1, h2⟩ | h⟩
  · exact c46_matrix_roundtrip_partial m hwf h1 h2
  · subst h
    simp [matToEigen, matToProto]

/-- **C41, univariate states.** Written into a message and read by any other cluster, parameters
and cardinality (and its logarithm) are those of the source; the members and statistics of the
reading cluster stay as they are. -/
theorem c41_uni_ls {S : Type} (c d : Cluster S UniLS) :
    ∃ d', setStateFromProto uniLSFromProto d (writeStateToProto uniLSToProto c) true = .ok d' ∧
      d'.state = c.state ∧ d'.card = c.card ∧ d'.logCard = logCardOf c.card ∧ d'.idx = d.idx ∧
      d'.stats = d.stats :=
  ⟨_, rfl, rfl, rfl, rfl, rfl, rfl⟩

example : ∃ d', setStateFromProto uniLSFromProto
    (⟨0, ⊥, ∅, (), ⟨0, 1⟩⟩ : Cluster Unit UniLS)
    (writeStateToProto uniLSToProto ⟨3, logCardOf 3, {1, 2, 5}, (), ⟨-1, 4⟩⟩) true = .ok d' ∧
    d'.state = ⟨-1, 4⟩ ∧ d'.card = 3 := by
  obtain ⟨d', h1, h2, h3, -⟩ := c41_uni_ls (⟨3, logCardOf 3, {1, 2, 5}, (), ⟨-1, 4⟩⟩)
    (⟨0, ⊥, ∅, (), ⟨0, 1⟩⟩ : Cluster Unit UniLS)
  exact ⟨d', h1, h2, h3⟩

/-- **C41, linear regression states.** -/
theorem c41_lin_reg {S : Type} (c d : Cluster S LinRegDyn) :
    ∃ d', setStateFromProto linRegFromProto d (writeStateToProto linRegToProto c) true = .ok d' ∧
      d'.state = c.state ∧ d'.card = c.card ∧ d'.logCard = logCardOf c.card ∧ d'.idx = d.idx ∧
      d'.stats = d.stats := by
  have h : linRegFromProto (writeStateToProto linRegToProto c) = .ok c.state := by
    simp only [linRegFromProto, writeStateToProto, linRegToProto, ClusterMsg.linReg,
      c46_vector_roundtrip]
    rfl
  unfold setStateFromProto
  rw [h]
  exact ⟨_, rfl, rfl, rfl, rfl, rfl, rfl⟩

example : ∃ d', setStateFromProto linRegFromProto
    (⟨0, ⊥, ∅, (), ⟨[], 1⟩⟩ : Cluster Unit LinRegDyn)
    (writeStateToProto linRegToProto ⟨3, logCardOf 3, {1, 2, 5}, (), ⟨[1, 2], 4⟩⟩) true = .ok d' ∧
    d'.state = ⟨[1, 2], 4⟩ ∧ d'.card = 3 := by
  obtain ⟨d', h1, h2, h3, -⟩ := c41_lin_reg (⟨3, logCardOf 3, {1, 2, 5}, (), ⟨[1, 2], 4⟩⟩)
    (⟨0, ⊥, ∅, (), ⟨[], 1⟩⟩ : Cluster Unit LinRegDyn)
  exact ⟨d', h1, h2, h3⟩

/-- **C41, multivariate states.** Mean, precision, factor and cardinality are those of the source
and the stored log determinant is twice the sum of the logarithms of the factor's diagonal; it
is the source's if the source's was. -/
theorem c41_multi_ls {S : Type} (c d : Cluster S MultiLSDyn) (h1 : ShapeOK c.state.prec)
    (h2 : ShapeOK c.state.precChol) :
    ∃ d', setStateFromProto multiLSFromProto d (writeStateToProto multiLSToProto c) true = .ok d' ∧
      d'.state.mean = c.state.mean ∧ d'.state.prec = c.state.prec ∧
      d'.state.precChol = c.state.precChol ∧
      d'.state.precLogdet = logdetOfChol c.state.precChol ∧
      (c.state.precLogdet = logdetOfChol c.state.precChol → d'.state = c.state) ∧
      d'.card = c.card ∧ d'.logCard = logCardOf c.card ∧ d'.idx = d.idx ∧ d'.stats = d.stats := by
  have h : multiLSFromProto (writeStateToProto multiLSToProto c) =
      .ok ⟨c.state.mean, c.state.prec, c.state.precChol, logdetOfChol c.state.precChol⟩ := by
    simp only [multiLSFromProto, writeStateToProto, multiLSToProto, ClusterMsg.multiLs,
      c46_vector_roundtrip, h1.roundtrip, h2.roundtrip]
    rfl
  unfold setStateFromProto
  rw [h]
  refine ⟨_, rfl, rfl, rfl, rfl, rfl, ?_, rfl, rfl, rfl, rfl⟩
  intro e
  rw [← e]
  rfl

/-- A two-dimensional state. -/
noncomputable def exMultiLS : MultiLSDyn :=
  ⟨[1, 2], ⟨2, 2, [4, 0, 0, 9]⟩, ⟨2, 2, [2, 0, 0, 3]⟩, logdetOfChol ⟨2, 2, [2, 0, 0, 3]⟩⟩

example : ∃ d', setStateFromProto multiLSFromProto
    (⟨0, ⊥, ∅, (), ⟨[], ⟨0, 0, []⟩, ⟨0, 0, []⟩, 0⟩⟩ : Cluster Unit MultiLSDyn)
    (writeStateToProto multiLSToProto ⟨3, logCardOf 3, {1, 2, 5}, (), exMultiLS⟩) true = .ok d' ∧
    d'.state = exMultiLS ∧ d'.card = 3 := by
  obtain ⟨d', h1, -, -, -, -, h2, h3, -⟩ := c41_multi_ls
    (⟨3, logCardOf 3, {1, 2, 5}, (), exMultiLS⟩)
    (⟨0, ⊥, ∅, (), ⟨[], ⟨0, 0, []⟩, ⟨0, 0, []⟩, 0⟩⟩ : Cluster Unit MultiLSDyn)
    ⟨by simp [exMultiLS, Mat.WF], .inl (by simp [exMultiLS])⟩
    ⟨by simp [exMultiLS, Mat.WF], .inl (by simp [exMultiLS])⟩
  exact ⟨d', h1, h2 rfl, h3⟩

/-- The stored log determinant of a state built or read by the code is that of its factor, entry
by entry of the diagonal. -/
theorem c41_multi_ls_logdet (n : ℕ) (chol : Mat ℝ) (hwf : chol.WF) (hr : chol.rows = n)
    (hc : chol.cols = n) :
    logdetOfChol chol = 2 * ∑ i : Fin n, Real.log ((chol.at i i).getD 0) := by
  obtain ⟨r, c, st⟩ := chol
  simp only at hr hc
  subst hc
  subst hr
  unfold logdetOfChol matDiag
  congr 1
  have hlen : st.length = r * r := hwf
  have hb : ∀ i, i < r → i * r + i < st.length := by
    intro i hi
    rw [hlen]
    nlinarith [Nat.mul_le_mul_right r (show i + 1 ≤ r from hi)]
  have e1 : (List.range (min r r)).filterMap (fun i => st[i * r + i]?) =
      (List.range r).map (fun i => ((⟨r, r, st⟩ : Mat ℝ).at i i).getD 0) := by
    rw [min_self, ← List.filterMap_eq_map]
    apply List.filterMap_congr
    intro i hi
    have hi' := List.mem_range.1 hi
    simp [Mat.at, hi', List.getElem?_eq_getElem (hb i hi')]
  have e2 : ∀ (f : ℕ → ℝ) (n : ℕ), ((List.range n).map f).sum = ∑ i : Fin n, f i := by
    intro f n
    rw [Fin.sum_univ_eq_sum_range f n]
    induction n with
    | zero => simp
    | succ n ih => rw [List.range_succ, Finset.sum_range_succ]; simp [ih]
  rw [show (List.filterMap (fun i => (⟨r, r, st⟩ : Mat ℝ).store[i * r + i]?)
    (List.range (min r r))) = _ from e1, List.map_map]
  exact e2 _ r

example : logdetOfChol ⟨2, 2, [2, 0, 0, 3]⟩ = 2 * (Real.log 2 + Real.log 3) := by
  rw [c41_multi_ls_logdet 2 _ (by simp [Mat.WF]) rfl rfl]
  simp [Fin.sum_univ_two, Mat.at]

/-- **C41, factor-analytic states.** Loadings, noise variances, scores, means and cardinality are
those of the source; the inverse variances and the factors are those of the parameters read,
whatever the source stored. -/
theorem c41_fa {S : Type} (wood : List ℝ → Mat ℝ → Mat ℝ × ℝ) (c d : Cluster S FADyn)
    (h1 : ShapeOK c.state.eta) (h2 : ShapeOK c.state.lambda) :
    ∃ d', setStateFromProto (faFromProto wood) d (writeStateToProto faToProto c) true = .ok d' ∧
      d'.state.mu = c.state.mu ∧ d'.state.psi = c.state.psi ∧ d'.state.eta = c.state.eta ∧
      d'.state.lambda = c.state.lambda ∧
      d'.state.psiInverse = c.state.psi.map (fun x => x⁻¹) ∧
      (d'.state.covWood, d'.state.covLogdet) =
        wood (c.state.psi.map (fun x => x⁻¹)) c.state.lambda ∧
      d'.card = c.card ∧ d'.logCard = logCardOf c.card ∧ d'.idx = d.idx ∧ d'.stats = d.stats := by
  have h : faFromProto wood (writeStateToProto faToProto c) =
      .ok ⟨c.state.mu, c.state.psi, c.state.eta, c.state.lambda,
        (wood (c.state.psi.map (fun x => x⁻¹)) c.state.lambda).1, c.state.psi.map (fun x => x⁻¹),
        (wood (c.state.psi.map (fun x => x⁻¹)) c.state.lambda).2⟩ := by
    simp only [faFromProto, writeStateToProto, faToProto, ClusterMsg.fa,
      c46_vector_roundtrip, h1.roundtrip, h2.roundtrip]
    rfl
  unfold setStateFromProto
  rw [h]
  exact ⟨_, rfl, rfl, rfl, rfl, rfl, rfl, rfl, rfl, rfl, rfl, rfl⟩

example (wood : List ℝ → Mat ℝ → Mat ℝ × ℝ) : ∃ d', setStateFromProto (faFromProto wood)
    (⟨0, ⊥, ∅, (), ⟨[], [], ⟨0, 0, []⟩, ⟨0, 0, []⟩, ⟨0, 0, []⟩, [], 0⟩⟩ : Cluster Unit FADyn)
    (writeStateToProto faToProto ⟨1, logCardOf 1, {7}, (),
      ⟨[1, 2], [4, 5], ⟨1, 1, [3]⟩, ⟨2, 1, [1, 1]⟩, ⟨0, 0, []⟩, [], 0⟩⟩) true = .ok d' ∧
    d'.state.psiInverse = [4⁻¹, 5⁻¹] := by
  obtain ⟨d', h1, -, -, -, -, h2, -⟩ := c41_fa wood
    (⟨1, logCardOf 1, {7}, (),
      ⟨[1, 2], [4, 5], ⟨1, 1, [3]⟩, ⟨2, 1, [1, 1]⟩, ⟨0, 0, []⟩, [], 0⟩⟩)
    (⟨0, ⊥, ∅, (), ⟨[], [], ⟨0, 0, []⟩, ⟨0, 0, []⟩, ⟨0, 0, []⟩, [], 0⟩⟩ : Cluster Unit FADyn)
    ⟨by simp [Mat.WF], .inl (by simp)⟩ ⟨by simp [Mat.WF], .inl (by simp)⟩
  exact ⟨d', h1, h2⟩

/-- **C41, `get_state_proto`.** The message of `get_state_proto` carries no cardinality: reading
it sets the cardinality of the reading cluster to zero. -/
theorem c41_get_state_proto_card {S : Type} (c d : Cluster S UniLS) :
    ∃ d', setStateFromProto uniLSFromProto d (getStateProto uniLSToProto c) true = .ok d' ∧
      d'.state = c.state ∧ d'.card = 0 ∧ d'.logCard = ⊥ :=
  ⟨_, rfl, rfl, rfl, by simp [getStateProto, uniLSToProto, logCardOf]⟩

/-- **C41, messages of another kind.** A univariate cluster reading a message that holds another
kind of state silently gets mean and variance zero. -/
theorem c41_wrong_kind_reads_default {S : Type} (d : Cluster S UniLS) (m : ClusterMsg)
    (h : ∀ a b, m.val ≠ .uniLs a b) :
    ∃ d', setStateFromProto uniLSFromProto d m true = .ok d' ∧ d'.state = ⟨0, 0⟩ := by
  have : m.uniLs = (0, 0) := by
    unfold ClusterMsg.uniLs
    split
    · rename_i a b e
      exact absurd e (h a b)
    · rfl
  refine ⟨_, rfl, ?_⟩
  simp [this]

example : ∃ d', setStateFromProto uniLSFromProto (⟨0, ⊥, ∅, (), ⟨5, 1⟩⟩ : Cluster Unit UniLS)
    (linRegToProto ⟨[1, 2], 3⟩) true = .ok d' ∧ d'.state = ⟨0, 0⟩ :=
  c41_wrong_kind_reads_default _ _ (by intro a b h; cases h)

end Bayesmix.Hierarchies
