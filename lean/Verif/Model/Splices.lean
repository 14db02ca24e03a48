import Mathlib.Data.Finset.Basic
/-!
Model of the table of splices of the program `splices` (apps/splices/splices.cpp).  Methods are of any type; that they
are ordered, as `set` needs, has no influence on what is in the sets.
-/
namespace Ringing
namespace Splices

variable {M D : Type} [DecidableEq M] [DecidableEq D]

/-- The rest of the loop of `save_splice` (splices.cpp:435-455) after the set found: the sets merged into it, and the table without them. -/
def absorb (a b : M) (d : D) : List (D × Finset M) → Finset M × List (D × Finset M)
  | [] => (∅, [])
  | e :: t =>
    let x := absorb a b d t
    if d = e.1 ∧ (a ∈ e.2 ∨ b ∈ e.2) then (e.2 ∪ x.1, x.2) else (x.1, e :: x.2)

/-- `save_splice` (splices.cpp:432-462). -/
def save (a b : M) (d : D) : List (D × Finset M) → List (D × Finset M)
  | [] => [(d, insert b (insert a ∅))]
  | e :: t =>
    if d = e.1 ∧ (a ∈ e.2 ∨ b ∈ e.2) then
      let x := absorb a b d t
      (e.1, insert b (insert a e.2) ∪ x.1) :: x.2
    else e :: save a b d t

/-- The table after saving splices, one after the other. -/
def table (ps : List (M × M × D)) : List (D × Finset M) := ps.foldl (fun t p => save p.1 p.2.1 p.2.2 t) []

end Splices
end Ringing
