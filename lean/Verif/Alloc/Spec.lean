import Verif.Alloc.Model
import Mathlib.Algebra.BigOperators.Group.Finset.Basic
import Mathlib.Data.Finset.Range

/-!
# Specification of consistent allocations
-/

namespace Bayesmix

variable {G H Θ : Type}

/-- The rows in `A` that carry label `k`. -/
def membersIn (A : Finset ℕ) (alloc : List ℕ) (k : ℕ) : Finset ℕ :=
  A.filter fun i => alloc[i]? = some k

/-- The clusters of `s` hold exactly the rows in `A`, each in the cluster that its
label names, with the right cardinalities and summary statistics. -/
structure ConsistentOn [AddCommGroup G] (contrib : ℕ → G) (A : Finset ℕ) (s : Alg G H Θ) :
    Prop where
  /-- every row in `A` has a label, which names an existing cluster -/
  labelled : ∀ i ∈ A, ∃ c, s.alloc[i]? = some c ∧ c < s.clus.length
  /-- index sets -/
  members : ∀ k o, s.clus[k]? = some o → o.idx = membersIn A s.alloc k
  /-- cardinalities -/
  cards : ∀ k o, s.clus[k]? = some o → o.card = ((membersIn A s.alloc k).card : ℤ)
  /-- summary statistics -/
  stats : ∀ k o, s.clus[k]? = some o → o.ss = ∑ i ∈ membersIn A s.alloc k, contrib i

/-- `s` is a consistent allocation of exactly the rows `0..n-1`. -/
structure Consistent [AddCommGroup G] (contrib : ℕ → G) (n : ℕ) (s : Alg G H Θ) : Prop where
  len : s.alloc.length = n
  on : ConsistentOn contrib (Finset.range n) s

/-- No cluster is empty: each label is carried by some row. -/
def NoEmptyOn (A : Finset ℕ) (s : Alg G H Θ) : Prop :=
  ∀ k < s.clus.length, ∃ i ∈ A, s.alloc[i]? = some k

/-- Rows `i` and `j` carry the same label. -/
def together (alloc : List ℕ) (i j : ℕ) : Prop := alloc[i]? = alloc[j]?

end Bayesmix
