import Verif.Model.Row
import Verif.Model.Bell
/-
Model of class `change` (ringing/change.h, ringing/change.cpp) and of its action on rows
(row.cpp:190-208).  `n` is the number of bells and `swaps` the list of first positions of the
swapped pairs (change.h:117-118).

`bell` arithmetic on positions is done on 8 bits in the code.  For at most 255 bells (part of the
class invariant `WF` below) none of the additions wraps; at 256 bells the loops of
`change::places` would not end.
-/
namespace Ringing

/-- `change` (change.h:117-118). -/
structure Change where
  n : Nat
  swaps : List Nat
  deriving DecidableEq, Repr

namespace Change

/-- Class invariant: pairs disjoint, in increasing order, inside the bells. -/
def WF (c : Change) : Prop :=
  c.n ≤ 255 ∧ c.swaps.Pairwise (fun s t => s + 2 ≤ t) ∧ ∀ s ∈ c.swaps, s + 2 ≤ c.n

instance (c : Change) : Decidable (WF c) := inferInstanceAs (Decidable (_ ∧ _ ∧ _))

/-- The swaps pushed by `append_swaps_between` (change.cpp:50-53):
`for (bell s = from; s < to-1; s += 2) swaps.push_back(s);` -/
def swapsBetween (fuel : Nat) (s to : Nat) : List Nat :=
  match fuel with
  | 0 => []
  | fuel + 1 => if s + 1 < to then s :: swapsBetween fuel (s + 2) to else []

/-- The loop of `change::change(int, vector<bell> const&)` (change.cpp:86-93). -/
def ofPlacesLoop (n : Nat) : (places : List Nat) → (b : Nat) → (swaps : List Nat) → Out Change
  | [], b, swaps => .ok ⟨n, swaps ++ swapsBetween 256 b (toBell n)⟩
  | p :: ps, b, swaps =>
    if p ≥ n ∨ p < b ∨ (b ≠ 0 ∧ (p - b) % 2 ≠ 0) then .throw .changeInvalid
    else
      let b := if b = 0 ∧ (p - b) % 2 ≠ 0 then 1 else b
      ofPlacesLoop n ps (p + 1) (swaps ++ swapsBetween 256 b p)

/-- `change::change(int, vector<bell> const&)` (change.cpp:82-94). -/
def ofPlacesC (n : Nat) (places : List Nat) : Out Change := ofPlacesLoop n places 0 []

/-- The loop of `change::change(int, const string&)` (change.cpp:70-79): bells are read one by one
from the string; `fuel` bounds the number of characters. -/
def ofStringLoop (n : Nat) : (fuel : Nat) → (q : List Char) → (b : Nat) → (swaps : List Nat) →
    Out Change
  | _, [], b, swaps => .ok ⟨n, swaps ++ swapsBetween 256 b (toBell n)⟩
  | 0, _ :: _, _, _ => .timeout
  | fuel + 1, q, b, swaps => do
    let (p, q) ← Bell.readExtended q
    if p ≥ n ∨ p < b ∨ (b ≠ 0 ∧ (p - b) % 2 ≠ 0) then .throw .changeInvalid
    else
      let b := if b = 0 ∧ (p - b) % 2 ≠ 0 then 1 else b
      ofStringLoop n fuel q (p + 1) (swaps ++ swapsBetween 256 b p)

/-- `change::change(int, const string&)` (change.cpp:58-80). -/
def ofStringC (n : Nat) (pn : List Char) : Out Change :=
  if pn.isEmpty then (if n ≠ 0 then .throw .changeInvalid else .ok ⟨n, []⟩)
  else if pn = ['X'] ∨ pn = ['x'] ∨ pn = ['-'] then .ok ⟨n, swapsBetween 256 0 (toBell n)⟩
  else ofStringLoop n pn.length pn 0 []

/-- `change::reverse` (change.cpp:106-113). -/
def reverse (c : Change) : Change := ⟨c.n, c.swaps.reverse.map fun s => c.n - 2 - s⟩

/-- `change::places` (change.cpp:219-228): the two `while` loops push the positions from `b` up to
the next swap, or up to `n`. -/
def placesFrom (n : Nat) : (swaps : List Nat) → (b : Nat) → List Nat
  | [], b => List.range' b (n - b)
  | s :: ss, b => List.range' b (s - b) ++ placesFrom n ss (s + 2)

/-- `change::places` (change.cpp:219-228). -/
def places (c : Change) : List Nat := placesFrom c.n c.swaps 0

/-- `change::count_places` (change.cpp:215-217). -/
def countPlaces (c : Change) : Nat := (places c).length

/-- The cross styles of `change::print` (change.h:74-79, change.cpp:126-128). -/
inductive Cross | lower | dash | upper
  deriving DecidableEq, Repr

/-- `change::print` (change.cpp:116-131). -/
def print (c : Change) (style : Cross) : List Char :=
  let ret := (places c).flatMap Bell.write
  if c.n ≠ 0 ∧ ret.isEmpty then
    match style with
    | .lower => ['x']
    | .dash => ['-']
    | .upper => ['X']
  else ret

/-- The loop of `change::findswap` (change.cpp:146-149). -/
def findswapLoop (which : Nat) : List Nat → Bool
  | [] => false
  | s :: ss => if s ≤ which then (if s = which then true else findswapLoop which ss) else false

/-- `change::findswap` (change.cpp:143-150). -/
def findswap (c : Change) (which : Nat) : Bool :=
  if c.n = 0 then false else findswapLoop which c.swaps

/-- The loop of `change::findplace` (change.cpp:156-159). -/
def findplaceLoop (which : Nat) : List Nat → Bool
  | [] => true
  | s :: ss =>
    if s ≤ which then (if s = which ∨ s + 1 = which then false else findplaceLoop which ss) else true

/-- `change::findplace` (change.cpp:153-160). -/
def findplace (c : Change) (which : Nat) : Bool :=
  if c.n = 0 then true else findplaceLoop which c.swaps

/-- The loop of `change::swappair` (change.cpp:175-195), returning the new list of swaps.
`*s++ = which; if (*s == which + 1)` dereferences the end iterator when the swap at `which - 1` is
the last one. -/
def swappairLoop (w : Nat) : List Nat → Out (Bool × List Nat)
  | [] => .ok (true, [w])
  | s :: ss =>
    if s ≤ w + 1 then
      if s = w then .ok (false, ss)
      else if s + 1 = w then
        match ss with
        | [] => .ub
        | t :: ts => if t = w + 1 then .ok (true, w :: ts) else .ok (true, w :: t :: ts)
      else if s = w + 1 then .ok (true, w :: ss)
      else do
        let (b, l) ← swappairLoop w ss
        pure (b, s :: l)
    else .ok (true, w :: s :: ss)

/-- `change::swappair` (change.cpp:164-196): the returned flag and the modified change. -/
def swappairC (c : Change) (w : Nat) : Out (Bool × Change) :=
  if w + 2 > c.n then .throw .changeRange
  else do
    let (b, l) ← swappairLoop w c.swaps
    pure (b, ⟨c.n, l⟩)

/-- The loop of `change::internal` (change.cpp:203-209), `b` being the previous swap. -/
def internalLoop (n : Nat) : (swaps : List Nat) → (b : Nat) → Bool
  | [], b => n > b + 3
  | s :: ss, b => if s > b + 2 then true else internalLoop n ss s

/-- `change::internal` (change.cpp:199-211). `*s - b > 2` and `n - swaps.back() > 3` are computed
on `int`s, so are written without subtraction. -/
def internal (c : Change) : Bool :=
  if c.n < 3 then false
  else match c.swaps with
    | [] => true
    | s :: ss => if s > 1 then true else internalLoop c.n ss s

/-- `change::sign` (change.cpp:231-234). -/
def sign (c : Change) : Int := if c.n = 0 then 1 else if c.swaps.length % 2 = 1 then -1 else 1

/-- `operator*=(bell&, const change&)` (change.cpp:237-246): the position moves during the loop. -/
def posLoop : List Nat → Nat → Nat
  | [], b => b
  | s :: ss, b =>
    if s ≤ b then
      if s + 1 = b then posLoop ss (b - 1)
      else if s = b then posLoop ss (b + 1)
      else posLoop ss b
    else b

/-- `bell * change` (change.h:127-130). -/
def pos (c : Change) (b : Nat) : Nat := posLoop c.swaps b

/-- The loop of `have_same_places` (change.cpp:253-257). -/
def haveSamePlacesC (a b : Change) : Out Bool :=
  if a.n ≠ b.n then .throw .logicError
  else .ok ((List.range a.n).any fun i => findplace a i && findplace b i)

/-- `change::operator==` (change.h:61-62). -/
def eq (a b : Change) : Bool := decide (a.n = b.n) && (decide (a.n = 0) || decide (a.swaps = b.swaps))
/-- `change::operator<` (change.h:92-94). -/
def lt (a b : Change) : Bool := decide (a.n < b.n) || (decide (a.n = b.n) && Row.lt a.swaps b.swaps)
/-- `change::operator>` (change.h:95-97). -/
def gt (a b : Change) : Bool := decide (a.n > b.n) || (decide (a.n = b.n) && Row.lt b.swaps a.swaps)
/-- `change::operator>=` (change.h:98). -/
def ge (a b : Change) : Bool := !lt a b
/-- `change::operator<=` (change.h:99). -/
def le (a b : Change) : Bool := !gt a b

end Change

namespace Row

/-- `row::swap(int, int)` (row.h:138). -/
def swapC (r : Row) (i j : Nat) : Out Row := do
  let x ← vget r i
  let y ← vget r j
  let r ← vset r i y
  vset r j x

/-- The loop of `operator*=(row&, const change&)` (row.cpp:196-198). -/
def applySwapsC : List Nat → Row → Out Row
  | [], r => .ok r
  | s :: ss, r =>
    if s + 1 < r.length then do
      let r ← swapC r s (s + 1)
      applySwapsC ss r
    else .ok r

/-- `operator*=(row&, const change&)` (row.cpp:190-201). -/
def applyC (r : Row) (c : Change) : Out Row :=
  let r := r ++ (List.range' r.length (c.n - r.length)).map toBell
  if c.n ≠ 0 ∧ ¬ r.isEmpty then applySwapsC c.swaps r else .ok r

/-- Pure version of `row::operator*(const change&)` (row.cpp:203-208). -/
def apply (r : Row) (c : Change) : Row :=
  (List.range (max r.length c.n)).map fun i => fn r (c.pos i)

/-- The row reached from `r` by ringing a sequence of changes. -/
def applyAll (r : Row) (cs : List Change) : Row := cs.foldl apply r

/-- Reading all the bells of a string: `while (*s) data.push_back( bell::read_extended(s, &s) )`
(row.cpp:82-83, 91-92). -/
def readBells : (fuel : Nat) → List Char → Out (List Nat)
  | _, [] => .ok []
  | 0, _ :: _ => .timeout
  | fuel + 1, s => do
    let (b, rest) ← Bell.readExtended s
    let bs ← readBells fuel rest
    pure (b :: bs)

/-- `row::row(const string&)`, `row::row(const char*)` (row.cpp:79-94). -/
def ofStringC (s : List Char) : Out Row := do
  let d ← readBells s.length s
  ofVectorC d

/-- `row::print` (row.cpp:216-226). -/
def print (r : Row) : List Char := r.map Bell.toChar

/-- `operator<<(ostream&, row const&)` (row.cpp:550-554). -/
def write (r : Row) : List Char := r.flatMap Bell.write

end Row
end Ringing
