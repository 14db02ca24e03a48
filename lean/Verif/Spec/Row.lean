/-
Specification vocabulary for rows, independent of the model.
-/
namespace Spec

/-- The bell in position `i` of a row; bells beyond the end of the row stay at home. -/
def bellAt (r : List Nat) (i : Nat) : Nat := if h : i < r.length then r[i] else i

/-- A sequence of bells is a row if every bell `0, ..., n-1` occurs in it exactly once.
Bells are stored in 8 bits, so there are at most 256 of them. -/
def IsRow (r : List Nat) : Prop := r.length ≤ 256 ∧ ∀ b, b < r.length → r.count b = 1

/-- Applying a permutation of the positions `k` times. -/
def iter (f : Nat → Nat) : Nat → Nat → Nat
  | 0, i => i
  | k + 1, i => f (iter f k i)

/-- `r` conjugates `x` to `y`: `y = r^-1 x r`, written without inverses. -/
def Conjugates (x y r : List Nat) : Prop :=
  IsRow r ∧ r.length = x.length ∧ ∀ i, bellAt r (bellAt y i) = bellAt x (bellAt r i)

end Spec
