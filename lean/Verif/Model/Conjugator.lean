import Verif.Model.RowCycles
import Verif.Model.Change
/-
Model of `are_conjugate` and `conjugator` (row.cpp:627-695).
`std::sort` with a comparison of lengths may leave strings of equal length in any order, so
`conjugacy_class_vector` is modelled by a relation.
-/
namespace Ringing
namespace Row

/-- The splitting loop of `conjugacy_class_vector` (row.cpp:646-649): `find(',', i)` and `substr`. -/
def splitComma : List Char → List (List Char)
  | [] => [[]]
  | c :: cs =>
    if c = ',' then [] :: splitComma cs
    else match splitComma cs with
      | [] => [[c]]
      | s :: ss => (c :: s) :: ss

/-- The possible results of `conjugacy_class_vector` (row.cpp:641-653). -/
def ClassVector (r : Row) (v : List (List Char)) : Prop :=
  ∃ s, cyclesC r = .ok s ∧ v.Perm (splitComma s) ∧ v.Pairwise (fun x y => x.length ≤ y.length)

/-- `are_conjugate_impl` (row.cpp:655-659), with `cycle_eq` (row.cpp:635-639). -/
def areConjugateImpl (xc yc : List (List Char)) : Bool :=
  decide (xc.length = yc.length) && (xc.zip yc).all fun p => decide (p.1.length = p.2.length)

/-- `cycles_as_row` (row.cpp:661-668). -/
def cyclesAsRowC (rc : List (List Char)) : Out Row := ofStringC rc.flatten

/-- `conjugator` (row.cpp:686-695), given the two sorted vectors. -/
def conjugatorC (xc yc : List (List Char)) : Out Row :=
  if areConjugateImpl xc yc then do
    let x ← cyclesAsRowC xc
    let y ← cyclesAsRowC yc
    let i ← inverseC y
    mulC x i
  else .ok []

end Row
end Ringing
