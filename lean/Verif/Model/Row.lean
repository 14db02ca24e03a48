import Verif.Model.Out
/-
Model of class `row` (ringing/row.h, ringing/row.cpp).

A `row` is the contents of its `vector<bell> data` (row.h:78); bells are numbered from 0.

For the arithmetic there are two versions of each function: a *checked* one (suffix `C`) which
transcribes the loops and reports undefined behaviour, and a pure one used by the rest of the
model.  `Props/RowCore` proves that on valid rows they agree.
-/
namespace Ringing

/-- `row` : the list of bells in its data (row.h:78). -/
abbrev Row := List Nat

namespace Row

/-- `row::bells` (row.h:106). -/
abbrev bells (r : Row) : Nat := r.length

/-- `row::row(int)` (row.cpp:72-76) with `row::rounds()` (row.cpp:236-241): the assignment
`data[i] = i` truncates to 8 bits. -/
def roundsC (n : Nat) : Row := (List.range n).map toBell

/-- `row::rounds(n)` for at most 256 bells, where the 8-bit truncation is the identity. -/
def rounds (n : Nat) : Row := List.range n

/-- The loop of `row::validate` (row.cpp:96-107): the state is the vector `found`.  Bells are
unsigned so `data[i] < 0` is never true. -/
def validateC (data : Row) : Out Unit := do
  let _ ← forUp 0 data.length (List.replicate data.length false) fun found i => do
    let b ← vget data i
    if b ≥ data.length then .throw .rowInvalid else do
      let f ← vget found b
      if f then .throw .rowInvalid else vset found b true
  pure ()

/-- `row::row(vector<bell> const&)` (row.cpp:109-113). -/
def ofVectorC (d : List Nat) : Out Row := do
  validateC d
  pure d

/-- `row::resize` (row.cpp:537-548) for a non-negative argument; the push_back loop pads with the
current size (truncated to a bell). -/
def resizeC (r : Row) (b : Nat) : Out Row :=
  if b < r.length then ofVectorC (r.take b)
  else .ok (r ++ (List.range' r.length (b - r.length)).map toBell)

/-- `row::operator*` (row.cpp:136-149), `*this` is `a`. -/
def mulC (a r : Row) : Out Row := do
  let m := if a.length < r.length then r.length else a.length
  let product := roundsC m
  let product ← forUp 0 r.length product fun product i => do
    let ri ← vget r i
    if ri < a.length then do
      let x ← vget a ri
      vset product i x
    else
      vset product i ri
  forUp r.length m product fun product i => do
    let x ← vget a i
    vset product i x

/-- `row::operator/` (row.cpp:158-170), `*this` is `a`. -/
def divC (a r : Row) : Out Row := do
  let m := if a.length < r.length then r.length else a.length
  let quotient := roundsC m
  let k := min a.length r.length
  let quotient ← forUp 0 k quotient fun q i => do
    let ri ← vget r i
    let x ← vget a i
    vset q ri x
  let quotient ← forUp k a.length quotient fun q i => do
    let x ← vget a i
    vset q i x
  let k := max k a.length
  forUp k r.length quotient fun q i => do
    let ri ← vget r i
    vset q ri (toBell i)

/-- `row::inverse` (row.cpp:179-187). -/
def inverseC (a : Row) : Out Row :=
  if a.isEmpty then .ok []
  else forUp 0 a.length (roundsC a.length) fun res i => do
    let x ← vget a i
    vset res x (toBell i)

/-- The bell in position `i`, bells beyond the end staying at home.  (Not a function of the
library: the meaning of a row as a permutation of all the positions.) -/
def fn (r : Row) (i : Nat) : Nat := r.getD i i

/-- `row::find` (row.cpp:508-517): the position of a bell, or the bell itself if not found. -/
def find (r : Row) (b : Nat) : Nat :=
  match r.findIdx? (· == b) with
  | some i => i
  | none => b

/-- Pure version of `row::operator*` (row.cpp:136-149). -/
def mul (a r : Row) : Row :=
  (List.range (max a.length r.length)).map fun i => fn a (fn r i)

/-- Pure version of `row::inverse` (row.cpp:179-187). -/
def inverse (a : Row) : Row := (List.range a.length).map fun i => find a i

/-- Pure version of `row::operator/` (row.cpp:158-170). -/
def div (a r : Row) : Row :=
  (List.range (max a.length r.length)).map fun i => fn a (find r i)

/-- `row::conjugate` (row.cpp:210-213): `r.inverse() * *this * r`. -/
def conjugate (a r : Row) : Row := mul (mul (inverse r) a) r

/-- `row::isrounds` (row.cpp:358-364). -/
def isrounds (r : Row) : Bool := (List.range r.length).all fun i => r.getD i 0 == i

/-- The class invariant of `row`: what `validate` enforces (row.cpp:96-107), on bells of 8 bits. -/
def Valid (r : Row) : Prop := r.Perm (List.range r.length) ∧ r.length ≤ 256

instance (r : Row) : Decidable (Valid r) := inferInstanceAs (Decidable (_ ∧ _))

/-- `row::operator<` (row.h:146): `std::lexicographical_compare` of the data. -/
def lt (a b : Row) : Bool :=
  match a, b with
  | _, [] => false
  | [], _ :: _ => true
  | x :: xs, y :: ys => if x < y then true else if y < x then false else lt xs ys

/-- `row::operator>` (row.h:147): `std::vector`'s `>` is `<` with swapped arguments. -/
def gt (a b : Row) : Bool := lt b a
/-- `row::operator<=` (row.h:148): `std::vector`'s `<=` is `!(b < a)`. -/
def le (a b : Row) : Bool := !lt b a
/-- `row::operator>=` (row.h:149). -/
def ge (a b : Row) : Bool := !lt a b
/-- `row::operator==` (row.h:90). -/
def eq (a b : Row) : Bool := decide (a = b)
/-- `row::operator!=` (row.h:92). -/
def ne (a b : Row) : Bool := !eq a b

/-- `row::hash` (row.cpp:493-506), `size_t` of 64 bits. -/
def hash (r : Row) : Nat := r.foldl (fun h d => (31 * h + d) % 2 ^ 64) (r.length % 2 ^ 64)

end Row
end Ringing
