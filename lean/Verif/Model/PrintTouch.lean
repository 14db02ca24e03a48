import Verif.Model.Method
import Verif.Model.RowCycles
/-!
Model of how a touch is printed (apps/touchsearch/main.cpp).  The head of the touch is a list of entries, each a number
of repeats and a node, of which the model has the changes its iterator gives (`TouchNode.collectC`).  Not modelled:
`--quiet`, the line of the filter before it and the end of the line.  Counts of changes do not wrap round.
-/
namespace Ringing
namespace PrintTouch

/-- The members of `arguments` used (apps/touchsearch/prog_args.h): the bells, the calls, their names, and that of plain leads. -/
structure Args where
  bells : Nat
  calls : List Change
  names : List (List Char)
  plain : List Char

/-- What the loops change: the row, the number of changes, and the output. -/
structure St where
  r : Row
  len : Nat
  out : List Char

/-- The name written for a lead that ends with the change `c` (main.cpp:100-101, 104-105). -/
def nameC (A : Args) (c : Change) : Out (List Char) :=
  let cn := A.calls.findIdx fun d => Change.eq d c
  if cn < A.calls.length then vget A.names cn else .ok A.plain

/-- A lead (main.cpp:94-105); `c` is the change 0 of no bells if the lead has no changes. -/
def leadC (A : Args) (comma : Bool) (cs : List Change) (s : St) : Out St :=
  Method.applyAllC cs s.r >>= fun r =>
  let len := s.len + cs.length
  nameC A (cs.getLast?.getD ⟨0, []⟩) >>= fun nm =>
  .ok ⟨r, len, s.out ++ (if comma = true ∧ len ≠ 0 then [','] else []) ++ nm⟩

/-- The repeats of an entry (main.cpp:93). -/
def timesC (A : Args) (comma : Bool) (cs : List Change) : Nat → St → Out St
  | 0, s => .ok s
  | n + 1, s => leadC A comma cs s >>= timesC A comma cs n

/-- The loop over the entries (main.cpp:89-107). -/
def entriesC (A : Args) (comma : Bool) : List (Int × List Change) → St → Out St
  | [], s => .ok s
  | e :: es, s => timesC A comma e.2 e.1.toNat s >>= entriesC A comma es

/-- The loop that writes out the repeats (main.cpp:89, 108). -/
def repeatC (A : Args) (comma : Bool) (es : List (Int × List Change)) : (fuel : Nat) → St → Out St
  | 0, _ => .timeout
  | fuel + 1, s =>
    entriesC A comma es s >>= fun s =>
    Row.orderC s.r >>= fun o =>
    if comma = true ∧ o > 1 then repeatC A comma es fuel s else .ok s

/-- `print_touch::operator()` (main.cpp:76-117) with the flags of `search` (main.cpp:168-171): with `comma` those to
separate with commas and to write out repeats, without it that to print the length. -/
def printC (A : Args) (comma : Bool) (fuel : Nat) (es : List (Int × List Change)) : Out (List Char) :=
  repeatC A comma es fuel ⟨Row.rounds A.bells, 0, []⟩ >>= fun s =>
  Row.orderC s.r >>= fun o =>
  .ok (s.out ++ (if o > 1 then " x".toList ++ Bell.decimal o else [])
    ++ (if comma = true then [] else "  (".toList ++ Bell.decimal (s.len * o) ++ " changes)".toList))

end PrintTouch
end Ringing
