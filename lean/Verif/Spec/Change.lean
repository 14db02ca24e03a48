import Mathlib.Data.List.Chain
/-
Specification vocabulary for changes, independent of the model.
A change is given by the number of bells and the list of the first positions of the swapped pairs.
-/
namespace Spec

/-- Where the bell in position `i` goes when the pairs starting at the positions in `swaps` are
swapped. -/
def moveTo (swaps : List Nat) (i : Nat) : Nat :=
  if i ∈ swaps then i + 1
  else if i ≠ 0 ∧ i - 1 ∈ swaps then i - 1
  else i

/-- The swaps are disjoint pairs among `n` bells, listed in increasing order. -/
def IsChange (n : Nat) (swaps : List Nat) : Prop :=
  n ≤ 255 ∧ swaps.Pairwise (fun s t => s + 2 ≤ t) ∧ ∀ s ∈ swaps, s + 2 ≤ n

/-- Position `i` of `n` is a place: the bell in it stays. -/
def IsPlace (n : Nat) (swaps : List Nat) (i : Nat) : Prop := i < n ∧ moveTo swaps i = i

/-- A list of places from which a change on `n` bells can be made: increasing, below `n`, with an even
number of bells between consecutive places. -/
def PlacesOK (n : Nat) (ps : List Nat) : Prop :=
  (∀ p ∈ ps, p < n) ∧ ps.IsChain (fun p q => p < q ∧ (q - p) % 2 = 1)

/-- The places actually made: those listed, the lead if an odd number of bells is below the first
listed place, and the last place if an odd number of bells is above the last listed place. -/
def PlaceMade (n : Nat) (ps : List Nat) (i : Nat) : Prop :=
  i ∈ ps ∨ (i = 0 ∧ ∃ p, ps.head? = some p ∧ p % 2 = 1) ∨
  (i + 1 = n ∧ ((ps = [] ∧ n % 2 = 1) ∨ ∃ l, ps.getLast? = some l ∧ (n - 1 - l) % 2 = 1))

end Spec
