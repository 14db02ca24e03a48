import Verif.Model.Group
/-
Model of classes `multtab` and `sqmulttab` (ringing/multtab.h, ringing/multtab.cpp).

A `row_t` is its index `n`, a `post_col_t` or `pre_col_t` its column number (the pointer to the table is
that of the table it is used with).  Products of rows use the pure `Row.mul`, which C49 proves equal to
the checked code.  A failing `assert` is undefined behaviour here.  `dump` is not modelled.
-/
namespace Ringing

/-- `multtab` (multtab.h:331-335).  In a column `true` stands for `pre_mult`. -/
structure Multtab where
  table : List (List Nat)
  rows : List Row
  pends : Group
  post : Group
  cols : List (Row × Bool)
  deriving DecidableEq, Repr

namespace Multtab

/-- `multtab::bells` (multtab.cpp:51-54). -/
def bells (t : Multtab) : Nat :=
  match t.rows with
  | [] => 0
  | r :: _ => r.length

/-- `multtab::size` (multtab.h:289). -/
def size (t : Multtab) : Nat := t.table.length

/-- `multtab::swap` (multtab.cpp:56-63): the new values of `*this` and `other`. -/
def swap (t other : Multtab) : Multtab × Multtab :=
  (⟨other.table, other.rows, other.pends, other.post, other.cols⟩, ⟨t.table, t.rows, t.pends, t.post, t.cols⟩)

/-- The loop of `multtab::make_post_representative` (multtab.cpp:77-86). -/
def postLoop (rows : List Row) (r : Row) : List Row → (res : Row) → Row
  | [], res => res
  | q :: qs, res =>
    let x := Row.mul r q
    postLoop rows r qs (if (res.length = 0 ∨ Row.lt x res) ∧ rows.contains x then x else res)

/-- `multtab::make_post_representative` (multtab.cpp:71-89), given the members `rows` and `postgroup`. -/
def postRep (rows : List Row) (post : Group) (r : Row) : Row :=
  if post.v.length < 2 then r else postLoop rows r post.v []

/-- The loop of `multtab::make_representative` (multtab.cpp:95-101). -/
def repLoop (rows : List Row) (post : Group) (r : Row) : List Row → (res : Row) → Row
  | [], res => res
  | p :: ps, res =>
    let x := postRep rows post (Row.mul p r)
    repLoop rows post r ps (if x.length ≠ 0 ∧ Row.lt x res then x else res)

/-- `multtab::make_representative` (multtab.cpp:91-104). -/
def rep (rows : List Row) (pends post : Group) (r : Row) : Row := repLoop rows post r pends.v r

/-- `multtab( first, last )` (multtab.h:245-248). -/
def ofRows (l : List Row) : Multtab :=
  ⟨List.replicate l.length [], l, Group.trivial0, Group.trivial0, []⟩

/-- `multtab::init` (multtab.cpp:106-134): the set of representatives, the assertion, and the empty
table.  This is the constructor with two groups (multtab.h:263-267); the one with one group has the
default `postgroup`. -/
def initC (l : List Row) (pends post : Group) : Out Multtab :=
  let rows2 := l.foldl (fun s r => (Group.setInsert Row.lt (rep l pends post r) s).1) []
  if pends.v.length = 0 then .ub
  else if rows2.length ≠ l.length / pends.v.length then .ub
  else .ok ⟨List.replicate rows2.length [], rows2, pends, post, []⟩

/-- `multtab( first, last, group )` (multtab.h:257-260). -/
def ofGroupC (l : List Row) (pends : Group) : Out Multtab := initC l pends Group.trivial0

/-- `multtab( first, last, row )` (multtab.h:251-254). -/
def ofPartEndC (l : List Row) (partend : Row) : Out Multtab :=
  Group.ofRowC partend >>= fun g => ofGroupC l g

/-- Whether some element of the group does not commute with `r` (multtab.cpp:167-169, 197-199). -/
def noncommuting (g : Group) (r : Row) : Bool := g.v.any fun i => decide (Row.mul r i ≠ Row.mul i r)

/-- The search for an existing column (multtab.cpp:174-176, 204-206). -/
def colIdx (cols : List (Row × Bool)) (r : Row) (pre : Bool) : Option Nat :=
  cols.findIdx? fun c => decide (c.2 = pre) && decide (c.1 = r)

/-- The map `finder` (multtab.cpp:182-184, 212-214), as a function: `finder[ rows[i] ] = i` for each `i`
in turn, and for other rows `operator[]` gives a default `row_t`, whose index is 0. -/
def finder (rows : List Row) : Row → Nat :=
  (rows.zipIdx).foldl (fun f ri => fun r => if r = ri.1 then ri.2 else f r) (fun _ => 0)

/-- The loop `for ( i < table.size() ) table[i].push_back( ... )` (multtab.cpp:186-187, 216-217); `f` is
the map from rows to the rows looked up. -/
def addCol (t : Multtab) (f : Row → Row) : List (List Nat) :=
  List.zipWith (fun l r => l ++ [finder t.rows (rep t.rows t.pends t.post (f r))]) t.table t.rows

/-- `multtab::compute_pre_mult` (multtab.cpp:163-191). -/
def computePreC (t : Multtab) (r : Row) : Out (Multtab × Nat) :=
  if noncommuting t.pends r then .throw .logicError
  else match colIdx t.cols r true with
  | some i => .ok (t, i)
  | none =>
    .ok ({ t with table := addCol t fun x => Row.mul r x, cols := t.cols ++ [(r, true)] },
      (t.cols ++ [(r, true)]).length - 1)

/-- `multtab::compute_post_mult( row )` (multtab.cpp:193-221). -/
def computePostC (t : Multtab) (r : Row) : Out (Multtab × Nat) :=
  if noncommuting t.post r then .throw .logicError
  else match colIdx t.cols r false with
  | some i => .ok (t, i)
  | none =>
    .ok ({ t with table := addCol t fun x => Row.mul x r, cols := t.cols ++ [(r, false)] },
      (t.cols ++ [(r, false)]).length - 1)

/-- `multtab::find( row )` (multtab.cpp:223-234). -/
def findC (t : Multtab) (r : Row) : Out Nat :=
  match t.rows.findIdx? fun x => decide (x = rep t.rows t.pends t.post r) with
  | some i => .ok i
  | none => .ub

/-- `multtab::find( row_t )` (multtab.cpp:236-239). -/
def rowC (t : Multtab) (i : Nat) : Out Row := vget t.rows i

/-- `row_t * post_col_t` and `pre_col_t * row_t` (multtab.h:365-369). -/
def mulColC (t : Multtab) (i c : Nat) : Out Nat := vget t.table i >>= fun l => vget l c

/-- `row_t::isrounds` (multtab.h:65). -/
def isrounds (i : Nat) : Bool := i == 0

/-- `sqmulttab::sqinit` (multtab.cpp:251-255), from row `i` on. -/
def sqinitC : (k i : Nat) → Multtab → Out Multtab
  | 0, _, t => .ok t
  | k + 1, i, t => rowC t i >>= fun r => computePostC t r >>= fun tc => sqinitC k (i + 1) tc.1

/-- `sqmulttab( first, last )` (multtab.h:342-345). -/
def sqC (l : List Row) : Out Multtab := sqinitC l.length 0 (ofRows l)

/-- The product of two rows of a `sqmulttab` (multtab.h:371-373). -/
def sqMulC (t : Multtab) (l r : Nat) : Out Nat := vget t.table l >>= fun x => vget x r

end Multtab
end Ringing
