import Verif.Spec.Method
import Verif.Spec.Row
/-
Specification vocabulary for touches.
-/
namespace Spec

/-- The changes of a touch.  `lead` is a lead of the method, `ends` the changes that may end a lead, the
one of the plain lead first; `calls` says for each lead which of them ends it. -/
def touchChanges {α : Type} (lead ends : List α) (calls : List Nat) : List α :=
  calls.flatMap fun k => lead.dropLast ++ (ends[k]?).toList

/-- A sequence of changes on `n` bells, each given by its swaps, is a true round touch: it brings every
bell back to where it started, and no row is repeated, that is, after different numbers of changes (the
end not counted) some bell is in different positions. -/
def TrueRound (n : Nat) (css : List (List Nat)) : Prop :=
  (∀ p, p < n → follow css p = p) ∧
  ∀ i j, i < j → j < css.length → ∃ p, p < n ∧ follow (css.take i) p ≠ follow (css.take j) p

/-- No row occurs twice in a lead (the lead head not counted). -/
def TrueLead (n : Nat) (css : List (List Nat)) : Prop :=
  ∀ i j, i < j → j < css.length → ∃ p, p < n ∧ follow (css.take i) p ≠ follow (css.take j) p

/-- Ringing the changes `cs` from the row `p` and the changes `ds` from the row `q` leads to the same row of
`n` bells: whenever the bell in position `x` of `p` is the one in position `y` of `q`, it ends in the same
position. -/
def SameRow (n : Nat) (p : List Nat) (cs : List (List Nat)) (q : List Nat) (ds : List (List Nat)) : Prop :=
  ∀ x y, x < n → y < n → bellAt p x = bellAt q y → follow cs x = follow ds y

/-- The parts of a touch, rung from the rows `P`, are true and true against each other: no row occurs in
two parts or twice in a part. -/
def TrueParts (n : Nat) (P : List (List Nat)) (css : List (List Nat)) : Prop :=
  ∀ p ∈ P, ∀ q ∈ P, ∀ i j, i < css.length → j < css.length →
    SameRow n p (css.take i) q (css.take j) → p = q ∧ i = j

/-- No row occurs in different leads, each of `len` changes, of the same or of different parts. -/
def LeadsTrue (n len : Nat) (P : List (List Nat)) (css : List (List Nat)) : Prop :=
  ∀ p ∈ P, ∀ q ∈ P, ∀ i j, i < css.length → j < css.length →
    SameRow n p (css.take i) q (css.take j) → i / len = j / len

/-- The touch ends in one of the rows `P`. -/
def EndsIn (n : Nat) (P : List (List Nat)) (css : List (List Nat)) : Prop :=
  ∃ p ∈ P, ∀ x, x < n → bellAt p (follow css x) = x

/-- It takes `k` repetitions to come round. -/
def ComesRound (n : Nat) (css : List (List Nat)) (k : Nat) : Prop :=
  0 < k ∧ (∀ x, x < n → iter (follow css) k x = x) ∧ ∀ j, 0 < j → j < k → ∃ x, x < n ∧ iter (follow css) j x ≠ x

end Spec
