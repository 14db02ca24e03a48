import Verif.Spec.Change
/-
Specification vocabulary for sequences of changes.
-/
namespace Spec

/-- The list, read round a circle, is its own mirror image about index `i`: indices at equal
distance from `i` on either side (round the circle) hold the same element. -/
def MirrorAbout {α : Type} (l : List α) (i : Nat) : Prop :=
  ∀ a b, a < l.length → b < l.length →
    (a + b = 2 * i ∨ a + b = 2 * i + l.length ∨ a + b + l.length = 2 * i) → l[a]? = l[b]?

/-- Where the bell in position `p` is after a sequence of changes, each given by its swaps. -/
def follow : List (List Nat) → Nat → Nat
  | [], p => p
  | ss :: rest, p => follow rest (moveTo ss p)

/-- How far the bell that starts in position `b` moves at change number `k`: -1, 0 or 1. -/
def move (css : List (List Nat)) (b k : Nat) : Int :=
  (follow (css.take (k + 1)) b : Int) - follow (css.take k) b

/-- The bell that starts in position `b` plain hunts: it moves one place at every change in one
direction, except for one place, after which it moves the other way until a second place, after which
it moves in the first direction again until it is where it started.  The direction is out for even
`b` (odd-numbered bells) and in for the others. -/
def PlainHunts (css : List (List Nat)) (b : Nat) : Prop :=
  ∃ i j, i < j ∧ j < css.length ∧ follow css b = b ∧
    ∀ k, k < css.length → move css b k =
      (if k = i ∨ k = j then 0 else if i < k ∧ k < j then (if b % 2 = 0 then -1 else 1)
        else (if b % 2 = 0 then 1 else -1))

/-- Read round the circle, the `k` changes from index `i` on all leave the bell in place `p`. -/
def PlaceRun (css : List (List Nat)) (i k p : Nat) : Prop :=
  ∀ t, t < k → ∃ ss, css[(i + t) % css.length]? = some ss ∧ moveTo ss p = p

end Spec
