import Mathlib.Data.Nat.Prime.Basic
/-
Specification vocabulary for the integer functions, independent of the model.
-/
namespace Spec

/-- `v` is the largest element of the set. -/
def IsMax (A : Nat → Prop) (v : Nat) : Prop := A v ∧ ∀ x, A x → x ≤ v

/-- `x` is the order of some permutation of `n` objects: the least common multiple of cycle lengths
whose sum is at most `n`. -/
def OrderOn (n x : Nat) : Prop :=
  ∃ l : List Nat, (∀ c ∈ l, 0 < c) ∧ l.sum ≤ n ∧ x = l.foldr Nat.lcm 1

end Spec
