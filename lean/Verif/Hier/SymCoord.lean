import Mathlib.Analysis.Matrix.Order
import Mathlib.LinearAlgebra.Matrix.SchurComplement
import Mathlib.MeasureTheory.Constructions.Pi
import Mathlib.MeasureTheory.Integral.Lebesgue.Map
import Verif.Hier.GaussLaw

/-!
# Lebesgue measure on symmetric matrices

Symmetric matrices are parametrized by their entries on and above the diagonal.
-/

namespace Bayesmix.Hierarchies
open Real MeasureTheory ENNReal Matrix

variable {d : ℕ}

/-- Positions on and above the diagonal. -/
abbrev UT (d : ℕ) : Type := {p : Fin d × Fin d // p.1 ≤ p.2}

/-- The symmetric matrix with the given entries on and above the diagonal. -/
def symOf (w : UT d → ℝ) : Matrix (Fin d) (Fin d) ℝ :=
  Matrix.of fun i j => w ⟨(min i j, max i j), min_le_max⟩

theorem symOf_symm (w : UT d → ℝ) : (symOf w)ᵀ = symOf w := by
  ext i j
  simp only [symOf, transpose_apply, of_apply, min_comm j i, max_comm j i]

/-- Every symmetric matrix is given by exactly one choice of entries. -/
theorem symOf_surj {A : Matrix (Fin d) (Fin d) ℝ} (hA : Aᵀ = A) :
    symOf (fun p => A p.1.1 p.1.2) = A := by
  ext i j
  rcases le_total i j with h | h
  · simp [symOf, min_eq_left h, max_eq_right h]
  · have : A j i = A i j := congrFun (congrFun hA i) j
    simp [symOf, min_eq_right h, max_eq_left h, this]

theorem symOf_inj {v w : UT d → ℝ} (h : symOf v = symOf w) : v = w := by
  funext p
  obtain ⟨⟨i, j⟩, hij⟩ := p
  have := congrFun (congrFun h i) j
  simpa [symOf, min_eq_left hij, max_eq_right hij] using this

/-- A matrix with a new first row and column. -/
def border (c : ℝ) (b : Fin d → ℝ) (A : Matrix (Fin d) (Fin d) ℝ) :
    Matrix (Fin (d + 1)) (Fin (d + 1)) ℝ :=
  Matrix.of (Fin.cons (Fin.cons c b) fun i => Fin.cons (b i) (A i))

@[simp] theorem border_zero_zero (c : ℝ) (b : Fin d → ℝ) (A : Matrix (Fin d) (Fin d) ℝ) :
    border c b A 0 0 = c := rfl
@[simp] theorem border_zero_succ (c : ℝ) (b : Fin d → ℝ) (A : Matrix (Fin d) (Fin d) ℝ) (j : Fin d) :
    border c b A 0 j.succ = b j := rfl
@[simp] theorem border_succ_zero (c : ℝ) (b : Fin d → ℝ) (A : Matrix (Fin d) (Fin d) ℝ) (j : Fin d) :
    border c b A j.succ 0 = b j := rfl
@[simp] theorem border_succ_succ (c : ℝ) (b : Fin d → ℝ) (A : Matrix (Fin d) (Fin d) ℝ)
    (i j : Fin d) : border c b A i.succ j.succ = A i j := rfl

/-- The positions of the first row, and the others. -/
def utEquiv (d : ℕ) : Fin (d + 1) ⊕ UT d ≃ UT (d + 1) where
  toFun
    | .inl j => ⟨(0, j), Fin.zero_le j⟩
    | .inr p => ⟨(p.1.1.succ, p.1.2.succ), Fin.succ_le_succ_iff.2 p.2⟩
  invFun p :=
    if h : p.1.1 = 0 then .inl p.1.2
    else .inr ⟨(p.1.1.pred h, p.1.2.pred (fun h2 => h (Fin.le_zero_iff.1 (h2 ▸ p.2)))), by
      simpa using p.2⟩
  left_inv x := by
    rcases x with j | p
    · simp
    · simp [Fin.succ_ne_zero]
  right_inv p := by
    by_cases h : p.1.1 = 0
    · simp only [h, dite_true]
      exact Subtype.ext (Prod.ext h.symm rfl)
    · simp [h]

/-- Entries of a bordered matrix. -/
noncomputable def utGlue (x : (ℝ × (Fin d → ℝ)) × (UT d → ℝ)) : UT (d + 1) → ℝ :=
  MeasurableEquiv.piCongrLeft (fun _ => ℝ) (utEquiv d)
    ((MeasurableEquiv.sumPiEquivProdPi (fun _ : Fin (d + 1) ⊕ UT d => ℝ)).symm
      ((MeasurableEquiv.piFinSuccAbove (fun _ : Fin (d + 1) => ℝ) 0).symm x.1, x.2))

theorem symOf_utGlue (x : (ℝ × (Fin d → ℝ)) × (UT d → ℝ)) :
    symOf (utGlue x) = border x.1.1 x.1.2 (symOf x.2) := by
  have key : ∀ s, utGlue x (utEquiv d s) =
      (MeasurableEquiv.sumPiEquivProdPi (fun _ : Fin (d + 1) ⊕ UT d => ℝ)).symm
      ((MeasurableEquiv.piFinSuccAbove (fun _ : Fin (d + 1) => ℝ) 0).symm x.1, x.2) s := fun s =>
    MeasurableEquiv.piCongrLeft_apply_apply (utEquiv d) _ s
  have k1 : ∀ j, utGlue x ⟨(0, j), Fin.zero_le j⟩ =
      (Fin.cons x.1.1 x.1.2 : Fin (d + 1) → ℝ) j := by
    intro j
    refine (key (.inl j)).trans ?_
    show (MeasurableEquiv.piFinSuccAbove (fun _ : Fin (d + 1) => ℝ) 0).symm x.1 j = _
    simp [MeasurableEquiv.piFinSuccAbove, Fin.insertNthEquiv]
  have k2 : ∀ p : UT d, utGlue x ⟨(p.1.1.succ, p.1.2.succ), Fin.succ_le_succ_iff.2 p.2⟩ = x.2 p :=
    fun p => key (.inr p)
  have k1' : ∀ p : UT (d + 1), p.1.1 = 0 → utGlue x p =
      (Fin.cons x.1.1 x.1.2 : Fin (d + 1) → ℝ) p.1.2 := by
    rintro ⟨⟨i, j⟩, h⟩ (rfl : i = 0)
    exact k1 j
  have k2' : ∀ (p : UT (d + 1)) (q : UT d), p.1.1 = q.1.1.succ → p.1.2 = q.1.2.succ →
      utGlue x p = x.2 q := by
    rintro ⟨⟨i, j⟩, h⟩ q (rfl : i = _) (rfl : j = _)
    exact k2 q
  ext i j
  refine Fin.cases ?_ (fun i => ?_) i
  · refine Fin.cases ?_ (fun j => ?_) j
    · simp only [symOf, of_apply, border_zero_zero]
      rw [k1' _ (by simp)]; simp
    · simp only [symOf, of_apply, border_zero_succ]
      rw [k1' _ (by simp)]; simp
  · refine Fin.cases ?_ (fun j => ?_) j
    · simp only [symOf, of_apply, border_succ_zero]
      rw [k1' _ (by simp)]; simp
    · simp only [symOf, of_apply, border_succ_succ]
      refine k2' _ _ ?_ ?_
      · exact (Fin.strictMono_succ.monotone.map_min ..).symm
      · exact (Fin.strictMono_succ.monotone.map_max ..).symm

theorem measurePreserving_utGlue : MeasurePreserving (utGlue (d := d)) := by
  refine (volume_measurePreserving_piCongrLeft (fun _ => ℝ) (utEquiv d)).comp ?_
  refine (volume_measurePreserving_sumPiEquivProdPi_symm (fun _ : Fin (d + 1) ⊕ UT d => ℝ)).comp ?_
  exact ((volume_preserving_piFinSuccAbove (fun _ : Fin (d + 1) => ℝ) 0).symm).prod
    (MeasurePreserving.id _)

/-- Integrating over symmetric matrices by the last block, then the first row without its first
entry, then the first entry. -/
theorem lintegral_symOf_succ {φ : Matrix (Fin (d + 1)) (Fin (d + 1)) ℝ → ℝ≥0∞}
    (hφ : Measurable fun w : UT (d + 1) → ℝ => φ (symOf w)) :
    ∫⁻ w : UT (d + 1) → ℝ, φ (symOf w) =
      ∫⁻ A : UT d → ℝ, ∫⁻ b : Fin d → ℝ, ∫⁻ c : ℝ, φ (border c b (symOf A)) := by
  have hm : Measurable fun x : (ℝ × (Fin d → ℝ)) × (UT d → ℝ) => φ (symOf (utGlue x)) :=
    hφ.comp measurePreserving_utGlue.measurable
  rw [← measurePreserving_utGlue.lintegral_comp hφ, Measure.volume_eq_prod,
    lintegral_prod_symm _ hm.aemeasurable]
  refine lintegral_congr fun A => ?_
  have hm2 : Measurable fun x : ℝ × (Fin d → ℝ) => φ (symOf (utGlue (x, A))) :=
    hm.comp (measurable_id.prodMk measurable_const)
  rw [Measure.volume_eq_prod, lintegral_prod_symm _ hm2.aemeasurable]
  simp only [symOf_utGlue]

end Bayesmix.Hierarchies
