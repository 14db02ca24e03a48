import Verif.Model.Search
import Verif.Model.Multtab
import Verif.Model.Extent
/-
Model of `table_search` (ringing/table_search.h, ringing/table_search.cpp).  Flags are a number, bit 0
`ignore_rotations`, bit 1 `mutually_true_parts`, bit 2 `length_in_changes`, bit 3 `non_round_blocks`
(table_search.h:54-72).  A row of the table is its index, a column its number.  The node counter, which
is only used for debugging, is not modelled.
-/
namespace Ringing

/-- `table_search` (table_search.h:98-102). -/
structure TableSearch where
  meth : Method
  calls : List Change
  partends : Group
  lo : Nat
  hi : Nat
  f : Nat

namespace TableSearch
open Search

/-- `range_div` (table_search.cpp:54-69). -/
def rangeDivC (lo hi leadlen : Nat) : Out (Nat × Nat) :=
  if leadlen = 0 then .ub
  else .ok (if lo % leadlen ≠ 0 then lo / leadlen + 1 else lo / leadlen,
    if hi = 18446744073709551615 then hi else hi / leadlen)

/-- `table_search( meth, calls, partends, f )` (table_search.cpp:71-75). -/
def new (m : Method) (calls : List Change) (P : Group) (f : Nat) : TableSearch :=
  ⟨m, calls, P, 0, 18446744073709551615, f⟩

/-- `table_search( meth, calls, partends, lenrange, f )` (table_search.cpp:77-87). -/
def newRangeC (m : Method) (calls : List Change) (P : Group) (lo hi f : Nat) : Out TableSearch :=
  rangeDivC lo hi (if f.testBit 2 then u64 (P.v.length * m.length) else 1) >>= fun r =>
  .ok ⟨m, calls, P, r.1, r.2, f⟩

/-- `table_search( meth, calls, set_nr )` (table_search.cpp:89-93): the range is value-initialised. -/
def newOld (m : Method) (calls : List Change) (ign : Bool) : TableSearch :=
  ⟨m, calls, Group.trivial0, 0, 0, if ign then 1 else 0⟩

/-- `table_search( meth, calls, lenrange, set_nr )` (table_search.cpp:95-104): `f` is read before it is
initialised. -/
def newOldRangeC (_ : Method) (_ : List Change) (_ _ : Nat) (_ : Bool) : Out TableSearch := .ub

/-- `is_in_course` (table_search.cpp:144-160). -/
def isInCourseC (s : TableSearch) : Out Bool :=
  Method.lhC s.meth >>= fun lh => Row.signC lh >>= fun x =>
  if x = -1 then .ok false
  else match s.meth.ch.getLast? with
    | none => .ub
    | some back => .ok (s.calls.all fun c => decide (c.sign = back.sign))

/-- `is_fixed_treble` (table_search.cpp:162-172). -/
def isFixedTrebleC (s : TableSearch) : Out Bool :=
  Method.lhC s.meth >>= fun lh => vget lh 0 >>= fun x =>
  if x ≠ 0 then .ok false
  else match s.meth.ch.getLast? with
    | none => .ub
    | some back => .ok (back.findplace 0 && s.calls.all fun c => c.findplace 0)

/-- Copying the rows from an extent iterator to the generic end iterator (multtab.h:257-260). -/
def extentC (nw nh : Nat) : (fuel : Nat) → ExtIter → Out (List Row)
  | 0, _ => .timeout
  | fuel + 1, it =>
    if ExtIter.eq it ⟨true, []⟩ then .ok []
    else ExtIter.incC nw nh it >>= fun it' => extentC nw nh fuel it' >>= fun l => .ok (it.r :: l)

/-- `make_table` (table_search.cpp:174-186), with `extent_iterator( nw, nh )` (extent.cpp:57-59).  The
fuel is enough: C24. -/
def makeTableC (s : TableSearch) : Out Multtab :=
  isFixedTrebleC s >>= fun fixed =>
  let nh := if fixed then 1 else 0
  let nw := s.meth.b - nh
  extentC nw nh (nw.factorial + 1) (ExtIter.start (nw + nh)) >>= fun rows => Multtab.ofGroupC rows s.partends

/-- `compute_post_mult` for each row in turn (table_search.cpp:205, 220). -/
def postColsC : Multtab → List Row → Out (Multtab × List Nat)
  | t, [] => .ok (t, [])
  | t, r :: rs => Multtab.computePostC t r >>= fun tc => postColsC tc.1 rs >>= fun tcs => .ok (tcs.1, tc.2 :: tcs.2)

/-- The flags passed to `init_falseness` (table_search.cpp:133-135). -/
def ftFlagsC (s : TableSearch) : Out Nat :=
  isFixedTrebleC s >>= fun fixed => isInCourseC s >>= fun course =>
  .ok ((if fixed then 0 else Falseness.NO_FIXED_TREBLE) + (if course then Falseness.IN_COURSE_ONLY else 0))

/-- `impossible` (table_search.cpp:199-202). -/
def impossible (P : Group) (fs : List Row) : Bool := fs.any fun f => !Row.isrounds f && P.v.contains f

/-- `is_row_false` (table_search.cpp:239-247). -/
def isRowFalseC (t : Multtab) (leads : List Bool) (r : Nat) : List Nat → Out Bool
  | [] => .ok false
  | c :: cs =>
    Multtab.mulColC t r c >>= fun x => vget leads x >>= fun b =>
    if b then .ok true else isRowFalseC t leads r cs

/-- `leads[r.index()] = b` (table_search.cpp:341, 353). -/
def setLeadC (leads : List Bool) (r : Nat) (b : Bool) : Out (List Bool) :=
  if r < leads.length then .ok (leads.set r b) else .ub

/-- The test for an n-part touch (table_search.cpp:262-266).  The fuel is enough for a touch of that many
leads. -/
def isNPartC (s : TableSearch) (bells : Nat) (t : Touch) (leads : Nat) : Out Bool :=
  if !s.f.testBit 1 && decide (s.partends.v.length > 1) then
    t.collectC (leads * s.meth.length + 1) >>= fun cs =>
    Method.applyAllC cs (Row.roundsC bells) >>= fun r => Row.orderC r >>= fun o =>
    .ok (decide (o = s.partends.v.length))
  else .ok true

/-- `output_touch` (table_search.cpp:250-278).  `force_halt` is false when it is called. -/
def outputC (s : TableSearch) (bells : Nat) (halt : Outputer) (nodes : List TouchNode) (calls : List Nat) (cur : Nat)
    (out : List Touch) : Out (List Touch × Bool) :=
  childrenC nodes calls >>= fun ch =>
  isNPartC s bells (mkTouch nodes ch) calls.length >>= fun ok =>
  if ok then
    let o := give halt (mkTouch nodes ch) out
    if !s.f.testBit 0 && decide (s.partends.v.length = 1) then rotationsC halt nodes calls.length cur ch o else .ok o
  else .ok (out, false)

/-- The recursion for a `table_search::context`. -/
def ops (s : TableSearch) (t : Multtab) (halt : Outputer) (nodes : List TouchNode) (lhs fs : List Nat) :
    Ops Nat (List Bool) where
  K := lhs.length
  lo := s.lo
  hi := s.hi
  multi := decide (s.partends.v.length > 1)
  isFalseC := fun leads r => isRowFalseC t leads r fs
  round := fun r => s.f.testBit 3 || Multtab.isrounds r
  insC := fun leads r => setLeadC leads r true
  delC := fun leads r => setLeadC leads r false
  mulC := fun r k => vget lhs k >>= fun c => Multtab.mulColC t r c
  outC := outputC s t.bells halt nodes

/-- `search_base::run` (search_base.cpp:33-37) for a `table_search`: the constructor of the context
(table_search.cpp:109-138) and `run` (table_search.cpp:224-236). -/
def runC (s : TableSearch) (halt : Outputer) (fuel : Nat) : Out (List Touch) :=
  makeTableC s >>= fun t =>
  setupC s.meth s.calls >>= fun x =>
  postColsC t x.2 >>= fun tl =>
  ftFlagsC s >>= fun flags =>
  Falseness.ofMethodC s.meth flags >>= fun fs =>
  postColsC tl.1 fs >>= fun tf =>
  if impossible s.partends fs then .ok []
  else
    runRecC (ops s tf.1 halt x.1 tl.2 tf.2) fuel 0 0 0
      ⟨List.replicate tf.1.size false, [], false, []⟩ >>= fun st => .ok st.out

end TableSearch
end Ringing
