import Mathlib.Data.List.Dedup
/-
Specification of the prover: a bag of rows, split into the rows added since the last branch (`new`)
and those before (`old`).
-/
namespace Spec

/-- What can be done with a prover. The number in `add` is the place at which the standard library
puts the row among equal ones. -/
inductive ProverOp
  | add (r : List Nat) (k : Nat)
  | remove (r : List Nat)
  | branch
  | disable

/-- What is observed: the result of `add_row`; whether `remove_row` succeeded or threw. -/
inductive ProverResult
  | added (truth : Bool)
  | removed
  | threw
  | done
  deriving DecidableEq

/-- The abstract state. While proving is disabled (`limit = -1`) the truth value is `frozen`. -/
structure Bag where
  limit : Int
  new : List (List Nat)
  old : List (List Nat)
  frozen : Bool

namespace Bag

def all (s : Bag) : List (List Nat) := s.new ++ s.old

/-- No row added since the last branch occurs more often than allowed. -/
def TrueTouch (s : Bag) : Prop :=
  if s.limit = -1 then s.frozen = true else ∀ r ∈ s.new, (s.all.count r : Int) ≤ s.limit

open Classical in
/-- One operation. -/
noncomputable def step (s : Bag) : ProverOp → ProverResult × Bag
  | .add r _ => let s' := { s with new := r :: s.new }; (.added (decide s'.TrueTouch), s')
  | .remove r => if r ∈ s.new then (.removed, { s with new := s.new.erase r }) else (.threw, s)
  | .branch => (.done, ⟨s.limit, [], s.all, true⟩)
  | .disable => (.done, ⟨-1, s.new, s.old, decide s.TrueTouch⟩)

/-- A history. -/
noncomputable def run (s : Bag) : List ProverOp → List ProverResult × Bag
  | [] => ([], s)
  | op :: ops => let (x, s') := step s op; let (xs, s'') := run s' ops; (x :: xs, s'')

end Bag
end Spec

namespace Spec

/-- The line numbers (counted from 1) at which a row occurs. -/
def linesOf (r : List Nat) (rows : List (List Nat)) : List Int :=
  (rows.zipIdx.filter fun x => x.1 = r).map fun x => (x.2 : Int) + 1

/-- No row occurs more than `limit` times (`-1`: no limit). -/
def NoRowTooOften (limit : Int) (rows : List (List Nat)) : Prop :=
  limit = -1 ∨ ∀ r ∈ rows, (rows.count r : Int) ≤ limit

end Spec
