import Verif.Model.Change
/-
Model of `touch_node`, `touch_changes`, `touch_child_list` and `touch` (ringing/touch.h,
ringing/touch.cpp).

A node is the tree below it: pointers to nodes are followed, shared nodes appear several times.  Only
iterators over the same node are compared, so their positions identify them.  Copying an iterator
(`clone`) is the identity.
-/
namespace Ringing

/-- `touch_changes` (touch.h:114-134) and `touch_child_list` (touch.h:136-158), whose entries are a
number of repeats and a node. -/
inductive TouchNode
  | changes (c : List Change)
  | children (ch : List (Int × TouchNode))

/-- `touch_changes::iterator` (touch.cpp:40-56), by its position, and `touch_child_list::iterator`
(touch.cpp:68-88) with its position in the list, the iterator over the child and the count of repeats;
`empty` has the null child iterator of an empty list. -/
inductive TouchIter
  | leaf (i : Nat)
  | empty
  | list (i : Nat) (ci : TouchIter) (count : Int)
  deriving DecidableEq, Repr

namespace TouchNode

/-- `begin()` (touch.cpp:58-59, 110-112) with the constructor of the iterator (touch.cpp:85-87). -/
def begin : TouchNode → TouchIter
  | .changes _ => .leaf 0
  | .children [] => .empty
  | .children ((_, n) :: _) => .list 0 n.begin 0

/-- Comparison with `end()` (touch.cpp:48-51, 78-81, 61-62, 113-115): the end iterator of a list has
`i == last`. -/
def atEnd : TouchNode → TouchIter → Bool
  | .changes c, .leaf i => i == c.length
  | .children ch, .list i _ _ => i == ch.length
  | .children ch, .empty => ch.isEmpty
  | _, _ => false

/-- `operator*` (touch.cpp:46, 76).  Dereferencing past the end or a null iterator is undefined
behaviour. -/
def derefC : TouchIter → TouchNode → Out Change
  | .leaf i, .changes c => vget c i
  | .list i ci _, .children ch => vget ch i >>= fun e => derefC ci e.2
  | _, _ => .ub

/-- `operator++` (touch.cpp:47, 91-107).  The count is an `int`, whose overflow is undefined
behaviour. -/
def incC : TouchIter → TouchNode → Out TouchIter
  | .leaf i, .changes c => if i < c.length then .ok (.leaf (i + 1)) else .ub
  | .list i ci count, .children ch =>
    vget ch i >>= fun e =>
    incC ci e.2 >>= fun ci =>
    if atEnd e.2 ci then
      if count = 2147483647 then .ub
      else if count + 1 ≠ e.1 then .ok (.list i e.2.begin (count + 1))
      else match ch[i + 1]? with
        | some e' => .ok (.list (i + 1) e'.2.begin 0)
        | none => .ok (.list (i + 1) ci (count + 1))
    else .ok (.list i ci count)
  | _, _ => .ub

/-- Copying the range from `it` to `end()` (as `copy( t.begin(), t.end(), back_inserter(v) )` does). -/
def collectC (n : TouchNode) : (fuel : Nat) → TouchIter → Out (List Change)
  | 0, _ => .timeout
  | fuel + 1, it =>
    if atEnd n it then .ok []
    else derefC it n >>= fun c => incC it n >>= fun it => collectC n fuel it >>= fun l => .ok (c :: l)

end TouchNode

/-- `touch` (touch.h:161-187): the nodes and the head, `none` if null. -/
structure Touch where
  head : Option TouchNode
  nodes : List TouchNode

namespace Touch

/-- `touch()` (touch.h:179). -/
def new : Touch := ⟨none, []⟩
/-- `touch::push_back` (touch.cpp:121-124). -/
def pushBack (t : Touch) (n : TouchNode) : Touch := { t with nodes := t.nodes ++ [n] }
/-- `touch::set_head` (touch.h:173). -/
def setHead (t : Touch) (n : TouchNode) : Touch := { t with head := some n }
/-- `touch::get_node` (touch.h:175). -/
def getNodeC (t : Touch) (i : Nat) : Out TouchNode := vget t.nodes i
/-- Copying `[begin(), end())` (touch.h:167-170); without a head both are null iterators, which compare
equal (touch.h:93-94). -/
def collectC (t : Touch) (fuel : Nat) : Out (List Change) :=
  match t.head with
  | none => .ok []
  | some n => TouchNode.collectC n fuel n.begin

end Touch
end Ringing
