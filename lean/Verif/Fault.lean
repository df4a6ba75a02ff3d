/-!
# Outcomes of C++ code

A modelled C++ function that can go wrong returns `Except Fault α`.
-/

namespace Bayesmix

/-- How a modelled C++ function can fail to return normally.
* `ub`: undefined behaviour (out-of-range `operator[]`, null dereference, read of
  an uninitialised variable, ...);
* `assertFail`: a failed `assert` (abort in debug builds, undefined or wrong
  behaviour with `NDEBUG`);
* `throw`: a C++ exception;
* `outOfFuel`: a `while` loop did not end within the number of iterations given to the
  model. Theorems about such loops are for all large enough amounts of fuel, so the
  outcome of the model does not depend on it; non-termination is "for all amounts". -/
inductive Fault where
  | ub
  | assertFail
  | throw
  | outOfFuel
  deriving DecidableEq, Repr

/-- Unchecked `v[i]` on a `std::vector`: out of range is undefined behaviour. -/
def vget {α : Type _} (v : List α) (i : Nat) : Except Fault α :=
  match v[i]? with
  | some a => .ok a
  | none => .error .ub

/-- `v.erase(v.begin() + i)`: out of range is undefined behaviour. -/
def verase {α : Type _} (v : List α) (i : Nat) : Except Fault (List α) :=
  if i < v.length then .ok (v.eraseIdx i) else .error .ub

/-- `v[i] = a` : out of range is undefined behaviour. -/
def vset {α : Type _} (v : List α) (i : Nat) (a : α) : Except Fault (List α) :=
  if i < v.length then .ok (v.set i a) else .error .ub

/-- `bayesmix::categorical_rng(probas, rng, 0)` with `k` probabilities
(`src/utils/distributions.cc` 12-15): the outcome is an arbitrary index `< k`,
chosen by the arbitrary natural `r`.  With no probability at all
`stan::math::categorical_rng` checks that its argument is a simplex and throws. -/
def categorical (k r : Nat) : Except Fault Nat :=
  if k = 0 then .error .throw else .ok (r % k)

end Bayesmix
