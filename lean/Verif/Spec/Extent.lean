import Verif.Spec.Row
/-
Specification vocabulary for extents, independent of the model.
-/
namespace Spec

/-- The rows of the extent: rows on `nt` bells in which the first `nh` bells and all those from
`nh + nw` on are at home. -/
def InExtent (nw nh nt : Nat) (r : List Nat) : Prop :=
  IsRow r ∧ r.length = nt ∧ (∀ i, i < nh → bellAt r i = i) ∧ ∀ i, nh + nw ≤ i → bellAt r i = i

/-- Lexicographic order of rows: at the first position where they differ `r` has the smaller bell. -/
def LexLt (r s : List Nat) : Prop :=
  ∃ k, (∀ i, i < k → bellAt r i = bellAt s i) ∧ bellAt r k < bellAt s k

/-- The product of the numbers up to `n`. -/
def fact : Nat → Nat
  | 0 => 1
  | n + 1 => (n + 1) * fact n

end Spec
