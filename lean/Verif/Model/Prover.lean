import Verif.Model.Row
/-
Model of ringing/proof.h and ringing/proof.cpp: the classes `prover` and `proof`.

The line numbers and counts are unbounded here; in the code they are an `int` (and the count is cast
to `int`), so the model is faithful below 2^31 rows.
-/
namespace Ringing

/-- `typedef multimap<row, int> mmap;` (proof.h:113): the entries in the order of the keys. -/
abbrev MMap := List (Row × Int)

namespace MMap

/-- `m.equal_range(r).first`, as an index (used at proof.cpp:43-44, 73, 137). -/
def lower (m : MMap) (r : Row) : Nat := (m.takeWhile fun e => Row.lt e.1 r).length

/-- `m.equal_range(r).second`, as an index. -/
def upper (m : MMap) (r : Row) : Nat := (m.takeWhile fun e => !Row.lt r e.1).length

/-- `distance( rng.first, rng.second )` (proof.cpp:45, 79, 143). -/
def number (m : MMap) (r : Row) : Nat := upper m r - lower m r

/-- `m.insert( hint, value_type( r, line ) )` (proof.cpp:83-85).  The standard lets the new element
go anywhere among those with the same key: `k` says after how many of them. -/
def insert (m : MMap) (k : Nat) (r : Row) (line : Int) : MMap :=
  m.take (lower m r + min k (number m r)) ++ (r, line) :: m.drop (lower m r + min k (number m r))

end MMap

/-- `struct linedetail` (proof.h:59-66). -/
structure LineDetail where
  row : Row
  lines : List Int
  deriving DecidableEq, Repr

/-- The pointer `fi` of a prover (proof.h:118), with what it points to: nothing, a list that has not
been constructed, or a list. -/
inductive Fi
  | null
  | raw
  | live (l : List LineDetail)
  deriving DecidableEq, Repr

/-- The data members of one `prover` (proof.h:112-118), except `chain` and `fi`. -/
structure Level where
  maxOccurs : Int
  lineno : Int
  falsec : Nat
  dups : Nat
  m : MMap
  deriving DecidableEq, Repr

/-- A `prover` with the provers it is chained to (the nearest first).  The pointer `fi` is the same
for all of them (proof.cpp:181). -/
structure Prover where
  head : Level
  chain : List Level
  fi : Fi
  deriving DecidableEq, Repr

namespace Prover

/-- The constructors of `prover` (proof.h:75-83). -/
def make (maxOccurs : Int) (fi : Fi) : Prover := ⟨⟨maxOccurs, 0, 0, 0, []⟩, [], fi⟩

/-- `for ( prover* p = this; p; p = p->chain.get() )`: the provers of the chain. -/
def levels (p : Prover) : List Level := p.head :: p.chain

/-- `prover::count_row` (proof.cpp:38-49). -/
def countRow (p : Prover) (r : Row) : Nat := (p.levels.map fun l => l.m.number r).sum

/-- `prover::size` (proof.cpp:51-56). -/
def size (p : Prover) : Nat := (p.levels.map fun l => l.m.length).sum

/-- `prover::duplicates` (proof.h:98). -/
def duplicates (p : Prover) : Nat := p.head.dups

/-- `prover::truth` (proof.h:100). -/
def truth (p : Prover) : Bool := p.head.falsec == 0

/-- `prover::disable_proving` (proof.h:102). -/
def disable (p : Prover) : Prover := { p with head := { p.head with maxOccurs := -1 } }

/-- `prover::create_branch` (proof.cpp:173-184). -/
def branch (p : Prover) : Prover :=
  ⟨⟨p.head.maxOccurs, p.head.lineno, 0, p.head.dups, []⟩, p.levels, p.fi⟩

/-- Decrementing a `size_t`. -/
def decSize (x : Nat) : Nat := if x = 0 then 2 ^ 64 - 1 else x - 1

/-- `for ( j ... ) if ( j->_row == r ) { j->_lines.push_back( line ); return false; }`
(proof.cpp:96-101): `none` if there is no entry for the row. -/
def pushLine (r : Row) (line : Int) : List LineDetail → Option (List LineDetail)
  | [] => none
  | d :: l =>
    if d.row = r then some ({ d with lines := d.lines ++ [line] } :: l)
    else (pushLine r line l).map (d :: ·)

/-- The lines put into a new entry (proof.cpp:111-121): those from `rng.first` to `rng.second`, and
the new one if it is not among them.  The new element is before `rng.first` if it was inserted before
the elements with the same key (`k = 0`), and otherwise before `rng.second`. -/
def newLines (m : MMap) (k : Nat) (r : Row) (line : Int) : List Int :=
  let m' := m.insert k r line
  if min k (m.number r) = 0 then
    ((m'.drop (m.lower r + 1)).take (m.number r)).map (·.2) ++ [line]
  else
    ((m'.drop (m.lower r)).take (m.number r + 1)).map (·.2)

/-- `prover::add_row` (proof.cpp:59-128). The argument `k` is the place where the library inserts the
row among equal ones. -/
def addRowC (k : Nat) (r : Row) (p : Prover) : Out (Bool × Prover) :=
  let n := 1 + p.countRow r
  let h := p.head
  let line := h.lineno + 1
  let h' : Level := { h with lineno := line, m := h.m.insert k r line, dups := if n > 1 then h.dups + 1 else h.dups }
  if h.maxOccurs ≠ -1 ∧ (n : Int) > h.maxOccurs then
    let h'' : Level := { h' with falsec := h.falsec + 1 }
    match p.fi with
    | .null => .ok (h''.falsec == 0, { p with head := h'' })
    | .raw => .ub
    | .live l =>
      match pushLine r line l with
      | some l' => .ok (false, { p with head := h'', fi := .live l' })
      | none => .ok (false, { p with head := h'', fi := .live (l ++ [⟨r, newLines h.m k r line⟩]) })
  else .ok (h'.falsec == 0, { p with head := h' })

/-- `for ( j ... ) if ( j->_row == r ) { j->_lines.pop_back(); if ( j->_lines.empty() ) fi->erase(j);
break; }` (proof.cpp:163-169). -/
def popLineC (r : Row) : List LineDetail → Out (List LineDetail)
  | [] => .ok []
  | d :: l =>
    if d.row = r then
      if d.lines = [] then .ub
      else if d.lines.dropLast = [] then .ok l
      else .ok ({ d with lines := d.lines.dropLast } :: l)
    else popLineC r l >>= fun l' => .ok (d :: l')

/-- `prover::remove_row` (proof.cpp:130-171). -/
def removeRowC (r : Row) (p : Prover) : Out Prover :=
  let n := p.countRow r
  let h := p.head
  if n = 0 then .throw .logicError
  else if h.m.number r = 0 then .throw .logicError
  else
    let h' : Level := { h with lineno := h.lineno - 1, m := h.m.eraseIdx (h.m.upper r - 1),
                               dups := if n > 1 then decSize h.dups else h.dups }
    if h.maxOccurs ≠ -1 ∧ (n : Int) > h.maxOccurs then
      let h'' : Level := { h' with falsec := decSize h.falsec }
      match p.fi with
      | .null => .ok { p with head := h'' }
      | .raw => .ub
      | .live l => popLineC r l >>= fun l' => .ok { p with head := h'', fi := .live l' }
    else .ok { p with head := h' }

end Prover

namespace Proof

/-- One of the two loops of `proof::prove` (proof.h:251-254): rows are added as long as the touch is
true; in full mode the loop goes on, but `istrue && ...` no longer evaluates its right-hand side.
`ks` are the places chosen by the library. -/
def loopC (qp : Bool) : (rows : List (Row × Nat)) → (istrue : Bool) → Prover → Out (Bool × Prover)
  | [], istrue, p => .ok (istrue, p)
  | (r, k) :: rows, istrue, p =>
    if !qp || istrue then
      if istrue then do
        let (b, p) ← p.addRowC k r
        loopC qp rows b p
      else loopC qp rows false p
    else .ok (istrue, p)

/-- `proof::prove` (proof.h:241-256); `wh` is the state of the member `where` before, the result is the
truth and the state of `where` after. -/
def proveC (wh : Fi) (trueRows unknownRows : List (Row × Nat)) (mx : Int) (qp : Bool) : Out (Bool × Fi) := do
  let p := if qp then Prover.make mx .null else Prover.make mx wh
  let (b, p) ← loopC qp trueRows true p
  let (b, p) ← loopC qp unknownRows b p
  pure (b, if qp then wh else p.fi)

/-- The constructors of `proof` (proof.h:175-199): `istrue` is declared before `where`
(proof.h:231-232), so `prove` runs before `where` is constructed, and `where` is empty afterwards. -/
def makeC (trueRows unknownRows : List (Row × Nat)) (mx : Int) (qp : Bool) : Out (Bool × Fi) := do
  let (b, _) ← proveC .raw trueRows unknownRows mx qp
  pure (b, .live [])

end Proof
end Ringing
