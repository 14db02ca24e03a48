import Verif.Model.Falseness
import Verif.Model.Touch
/-
Model of `basic_search` (ringing/basic_search.h, ringing/basic_search.cpp) and of what it shares with
`table_search` (ringing/table_search.cpp): the two classes repeat the same code for making the nodes of
the touch, for the tests for canonical form and for the recursion.

An outputer (ringing/search_base.h:42-49) is a function from the list of all touches it was given, the
last one included, to its answer; this covers any stateful outputer.  The touch given to it is the value
of the touch at that time.
-/
namespace Ringing
namespace Search

/-- The answer of the outputer (`true`: halt) as a function of the touches given to it so far. -/
abbrev Outputer := List Touch → Bool

/-- `init_call` (basic_search.cpp:99-112, table_search.cpp:209-221), the nodes: `c`, whose only change is
`ch`, and `cl`, which is node 0 followed by `c`. -/
def initCallC (nodes : List TouchNode) (ch : Change) : Out (List TouchNode) :=
  vget nodes 0 >>= fun n0 => .ok (nodes ++ [.changes [ch], .children [(1, n0), (1, .changes [ch])]])

/-- `init_call` for each call in turn (basic_search.cpp:69-72, table_search.cpp:123-126). -/
def initCallsC : List Change → (nodes : List TouchNode) → Out (List TouchNode)
  | [], nodes => .ok nodes
  | ch :: cs, nodes => initCallC nodes ch >>= initCallsC cs

/-- The products `le * ch` (basic_search.cpp:111, table_search.cpp:220). -/
def callLhsC (le : Row) : List Change → Out (List Row)
  | [] => .ok []
  | ch :: cs => Row.applyC le ch >>= fun r => callLhsC le cs >>= fun l => .ok (r :: l)

/-- The nodes before the head and the lead heads of the plain lead and the calls, and the plain lead end
change followed by the calls (basic_search.cpp:63-72, table_search.cpp:117-126).  Decrementing `end()` of
an empty method is undefined behaviour. -/
def setupC (m : Method) (calls : List Change) : Out (List TouchNode × List Row) :=
  match m.ch.getLast? with
  | none => .ub
  | some last =>
    Method.applyAllC m.ch.dropLast [] >>= fun le =>
    initCallsC (last :: calls) [.changes m.ch.dropLast] >>= fun nodes =>
    callLhsC le (last :: calls) >>= fun lhs => .ok (nodes, lhs)

/-- The touch whose head has the given children; the head is also the last node
(basic_search.cpp:74-75). -/
def mkTouch (nodes : List TouchNode) (ch : List (Int × TouchNode)) : Touch :=
  ⟨some (.children ch), nodes ++ [.children ch]⟩

/-- `tl->push_back( 1, t.get_node( 2 * (1 + calls[i]) ) )` for each call (basic_search.cpp:141-142,
table_search.cpp:257-258). -/
def childrenC (nodes : List TouchNode) : (calls : List Nat) → Out (List (Int × TouchNode))
  | [] => .ok []
  | k :: cs => vget nodes (2 * (1 + k)) >>= fun n => childrenC nodes cs >>= fun l => .ok ((1, n) :: l)

/-- `force_halt = output( t )`. -/
def give (halt : Outputer) (t : Touch) (out : List Touch) : List Touch × Bool := (out ++ [t], halt (out ++ [t]))

/-- The loop over the rotations (basic_search.cpp:147-152, table_search.cpp:273-276); `k` is the number of
values of `start` still to come.  `splice` of the first element of an empty list is undefined
behaviour. -/
def rotLoopC (halt : Outputer) (nodes : List TouchNode) : (k : Nat) → (ch : List (Int × TouchNode)) →
    List Touch × Bool → Out (List Touch × Bool)
  | 0, _, o => .ok o
  | k + 1, ch, o =>
    if o.2 then .ok o
    else match ch with
      | [] => .ub
      | e :: ch => rotLoopC halt nodes k (ch ++ [e]) (give halt (mkTouch nodes (ch ++ [e])) o.1)

/-- `parts` (basic_search.cpp:136, table_search.cpp:272) and the loop; division by zero is undefined
behaviour. -/
def rotationsC (halt : Outputer) (nodes : List TouchNode) (len cur : Nat) (ch : List (Int × TouchNode))
    (o : List Touch × Bool) : Out (List Touch × Bool) :=
  if cur = 0 then .ub
  else
    let parts := if len % cur ≠ 0 then cur else len / cur
    if parts = 0 then .ub else rotLoopC halt nodes (len / parts - 1) ch o

/-- `is_possibly_canonical` (basic_search.cpp:160-172, table_search.cpp:285-300): `none` is `false`,
otherwise the new value of `cur`.  `multi` is `table.partends().size() > 1`. -/
def possiblyC (multi : Bool) (calls : List Nat) (cur : Nat) : Out (Option Nat) :=
  if calls.isEmpty then .ok (some cur)
  else if multi then .ok (some cur)
  else if cur = 0 then .ok (some calls.length)
  else if calls.length - 1 < cur then .ub
  else
    vget calls (calls.length - 1) >>= fun x =>
    vget calls (calls.length - 1 - cur) >>= fun y =>
    if x > y then .ok (some calls.length) else if x < y then .ok none else .ok (some cur)

/-- `is_really_canonical` (basic_search.cpp:176-183, table_search.cpp:304-315). -/
def really (multi : Bool) (calls : List Nat) : Bool :=
  multi || if calls.all fun x => decide (some x = calls.head?) then true
    else decide (calls.getLast? ≠ calls.head?)

/-- What differs between the classes: the number of lead heads, the range, the representation `R` of rows
and `L` of the set of leads. -/
structure Ops (R L : Type) where
  K : Nat
  lo : Nat
  hi : Nat
  multi : Bool
  isFalseC : L → R → Out Bool
  round : R → Bool
  insC : L → R → Out L
  delC : L → R → Out L
  mulC : R → Nat → Out R
  outC : (calls : List Nat) → (cur : Nat) → List Touch → Out (List Touch × Bool)

/-- The members changed by the recursion, and the touches output. -/
structure St (L : Type) where
  leads : L
  calls : List Nat
  halt : Bool
  out : List Touch

/-- The `for` loop of `run_recursive` (basic_search.cpp:205-209, table_search.cpp:346-350); at most
`K + 1` evaluations of its condition. -/
def loopC {R L : Type} (K : Nat) (mulC : R → Nat → Out R) (body : R → St L → Out (St L)) (r : R) :
    (fuel : Nat) → St L → Out (St L)
  | 0, _ => .timeout
  | fuel + 1, st =>
    if st.halt then .ok st
    else vget st.calls (st.calls.length - 1) >>= fun k =>
      if k < K then
        mulC r k >>= fun r' => body r' st >>= fun st =>
        vget st.calls (st.calls.length - 1) >>= fun k =>
        loopC K mulC body r fuel { st with calls := st.calls.dropLast ++ [k + 1] }
      else .ok st

/-- `run_recursive` (basic_search.cpp:186-214, table_search.cpp:318-355); `depth` and the lengths are
`size_t`, and the depth does not overflow.  `fuel` bounds the depth of the recursion. -/
def runRecC {R L : Type} (P : Ops R L) : (fuel : Nat) → (r : R) → (depth cur : Nat) → St L → Out (St L)
  | 0, _, _, _, _ => .timeout
  | fuel + 1, r, depth, cur, st =>
    possiblyC P.multi st.calls cur >>= fun p =>
    match p with
    | none => .ok st
    | some cur =>
      P.isFalseC st.leads r >>= fun f =>
      if f then
        if depth ≥ P.lo ∧ P.round r ∧ really P.multi st.calls then
          P.outC st.calls cur st.out >>= fun o => .ok { st with out := o.1, halt := o.2 }
        else .ok st
      else if depth < P.hi then
        P.insC st.leads r >>= fun l =>
        loopC P.K P.mulC (fun r' st => runRecC P fuel r' (depth + 1) cur st) r (P.K + 1)
          { st with leads := l, calls := st.calls ++ [0] } >>= fun st =>
        P.delC st.leads r >>= fun l => .ok { st with leads := l, calls := st.calls.dropLast }
      else .ok st

end Search

namespace BasicSearch
open Search

/-- The test in the loop of `init_falseness` (basic_search.cpp:83-93). -/
def anyOddC : List Row → Out Bool
  | [] => .ok false
  | r :: rs => Row.signC r >>= fun s => if s = -1 then .ok true else anyOddC rs

/-- `init_falseness` (basic_search.cpp:81-97). -/
def falsenessC (m : Method) (lhs : List Row) : Out (List Row) :=
  anyOddC lhs >>= fun odd => Falseness.ofMethodC m (if odd then 0 else Falseness.IN_COURSE_ONLY)

/-- `is_row_false` (basic_search.cpp:122-130): `count` on a `set<row>`. -/
def isRowFalseC (leads : List Row) (r : Row) : List Row → Out Bool
  | [] => .ok false
  | f :: fs =>
    Row.mulC r f >>= fun x =>
    if leads.any fun y => !Row.lt x y && !Row.lt y x then .ok true else isRowFalseC leads r fs

/-- `leads.erase( r )` (basic_search.cpp:212). -/
def erase (leads : List Row) (r : Row) : List Row := leads.filter fun y => Row.lt r y || Row.lt y r

/-- `output_touches` (basic_search.cpp:133-153). -/
def outputC (halt : Outputer) (nodes : List TouchNode) (ign : Bool) (calls : List Nat) (cur : Nat)
    (out : List Touch) : Out (List Touch × Bool) :=
  if cur = 0 then .ub
  else
    childrenC nodes calls >>= fun ch =>
    let o := give halt (mkTouch nodes ch) out
    if ign then .ok o else rotationsC halt nodes calls.length cur ch o

/-- The recursion for a `basic_search::context`. -/
def ops (halt : Outputer) (nodes : List TouchNode) (lhs fs : List Row) (lo hi : Nat) (ign : Bool) :
    Ops Row (List Row) where
  K := lhs.length
  lo := lo
  hi := hi
  multi := false
  isFalseC := fun leads r => isRowFalseC leads r fs
  round := Row.isrounds
  insC := fun leads r => .ok (Group.setInsert Row.lt r leads).1
  delC := fun leads r => .ok (erase leads r)
  mulC := fun r k => vget lhs k >>= fun x => Row.mulC r x
  outC := outputC halt nodes ign

/-- `search_base::run` (search_base.cpp:33-37) for a `basic_search` (basic_search.cpp:40-53, 58-78,
115-120): all touches output.  The constructor without a range is the one with the range from 0 to the
greatest `size_t`. -/
def runC (m : Method) (calls : List Change) (lo hi : Nat) (ign : Bool) (halt : Outputer) (fuel : Nat) :
    Out (List Touch) :=
  setupC m calls >>= fun x =>
  falsenessC m x.2 >>= fun fs =>
  vget x.2 0 >>= fun plain =>
  runRecC (ops halt x.1 x.2 fs lo hi ign) fuel (Row.roundsC plain.length) 0 0 ⟨[], [], false, []⟩ >>= fun st =>
  .ok st.out

end BasicSearch
end Ringing
