import Verif.Model.Mask
import Verif.Spec.Change
/-
What the changes allowed in a lead are, in terms of the arguments and of where each bell moves; places count from 0.
-/
namespace Ringing
namespace Mask
open Spec

/-- A single hunt bell and the normal length of the lead. -/
structure Std (A : Args) : Prop where
  one : A.huntBells = 1
  front : 1 ≤ A.trebleFront
  range : A.trebleFront ≤ A.trebleBack
  back : A.trebleBack ≤ A.bells
  len : A.leadLen = (1 + A.trebleDodges) * (A.trebleBack - A.trebleFront + 1) * 2
  even : A.trebleDodges ≠ 0 → (A.trebleBack - A.trebleFront + 1) % 2 = 0

/-- The place of the treble (from 0 on) at row `i` of the lead: in each section it alternates between two places. -/
def treblePos (A : Args) (i : Nat) : Nat :=
  let half := (1 + A.trebleDodges) * (A.trebleBack - A.trebleFront + 1)
  let j := if i % (2 * half) < half then i % (2 * half) else 2 * half - 1 - i % (2 * half)
  A.trebleFront - 1 + (2 * (j / (2 * (1 + A.trebleDodges))) + j % 2)

/-- The lower and the higher of the places of the treble before and after a change. -/
def lo (A : Args) (i : Nat) : Nat := min (treblePos A i) (treblePos A (i + 1))
def hi (A : Args) (i : Nat) : Nat := max (treblePos A i) (treblePos A (i + 1))

/-- Takes the treble where it should be. -/
def Moves (A : Args) (i : Nat) (ss : List Nat) : Prop := moveTo ss (treblePos A i) = treblePos A (i + 1)

/-- Agreement with the mask above the treble; where the mask leaves it open, -w (in every other change all bells above the
treble move) and -f (no place in the last place but one). -/
def Above (A : Args) (above : List Change) (i : Nat) (ss : List Nat) : Prop :=
  if above = [] then
    (A.rightPlace = true → i % 2 = A.bells % 2 → ∀ p, hi A i < p → ¬ IsPlace A.bells ss p) ∧
    (A.no78 = true → hi A i + 2 < A.bells → ¬ IsPlace A.bells ss (A.bells - 2))
  else ∃ a ∈ above, ∀ p, hi A i < p → moveTo ss p = moveTo a.swaps p

/-- The same below the treble; -f concerns second's place, and only for some symmetries. -/
def Below (A : Args) (below : List Change) (i : Nat) (ss : List Nat) : Prop :=
  if below = [] then
    (A.rightPlace = true → i % 2 = 0 → ∀ p, p < lo A i → ¬ IsPlace A.bells ss p) ∧
    (A.skewsym = true ∨ A.doubsym = true ∨ A.mirrorsym = true → A.no78 = true → 1 < lo A i → ¬ IsPlace A.bells ss 1)
  else ∃ b ∈ below, ∀ p, p < lo A i → moveTo ss p = moveTo b.swaps p

/-- The conditions on every change: -Fx, --changes, -l, -j and --mirror. -/
structure Common (A : Args) (ss : List Nat) : Prop where
  trivial : A.trueTrivial = true → ss ≠ []
  changes : A.changes ≠ [] → (A.includeChanges = true ↔ ⟨A.bells, ss⟩ ∈ A.changes)
  places : A.maxPlaces ≠ 0 → ((List.range A.bells).filter fun p => decide (moveTo ss p = p)).length ≤ A.maxPlaces
  consec : A.maxConsec ≠ 0 → ¬ ∃ s, s + A.maxConsec < A.bells ∧ ∀ j, s ≤ j → j ≤ s + A.maxConsec → IsPlace A.bells ss j
  mirror : A.mirrorsym = true → ∀ s ∈ ss, A.bells - 2 - s ∈ ss

/-- The changes allowed at a position. -/
structure Allowed (A : Args) (above below : List Change) (i : Nat) (c : Change) : Prop where
  bells : c.n = A.bells
  change : IsChange A.bells c.swaps
  moves : Moves A i c.swaps
  above : Above A above i c.swaps
  below : Below A below i c.swaps
  common : Common A c.swaps

/-- The changes allowed at a position of a principle: one of the mask or, where it has none, with -w on an even number of bells
in every other change only the cross, else any change satisfying the conditions. -/
def AllowedPrin (A : Args) (above : List Change) (i : Nat) (c : Change) : Prop :=
  c.n = A.bells ∧ IsChange A.bells c.swaps ∧
  if above ≠ [] then c ∈ above
  else if A.rightPlace = true ∧ A.bells % 2 = 0 ∧ i % 2 = 0 then ∀ p, ¬ IsPlace A.bells c.swaps p
  else Common A c.swaps ∧ (A.no78 = true → ¬ IsPlace A.bells c.swaps (A.bells - 2)) ∧
    (A.skewsym = true ∨ A.doubsym = true → A.no78 = true → ¬ IsPlace A.bells c.swaps 1)

/-- A change of the mask which takes the treble right. -/
def Right (A : Args) (i : Nat) (c : Change) : Prop := c.n = A.bells ∧ IsChange A.bells c.swaps ∧ Moves A i c.swaps

end Mask
end Ringing
