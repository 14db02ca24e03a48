import Verif.Model.MethodUtils
import Verif.Model.Extent
/-
Model of apps/methsearch/mask.cpp: the changes `methsearch` may use at each position of the lead.
`std::sort` and `std::unique` are modelled by an insertion sort and the removal of equal neighbours;
`reserve` is left out.
-/
namespace Ringing
namespace Mask
open MethodUtils

/-- The arguments used here (prog_args.h:60-190); `changes` is the `set< change >` of --changes. `trebleFront` and
`trebleBack` count from 1. -/
structure Args where
  bells : Nat
  leadLen : Nat
  huntBells : Nat
  trebleDodges : Nat
  trebleFront : Nat
  trebleBack : Nat
  rightPlace : Bool
  no78 : Bool
  sym : Bool
  skewsym : Bool
  doubsym : Bool
  mirrorsym : Bool
  trueTrivial : Bool
  maxPlaces : Nat
  maxConsec : Nat
  includeChanges : Bool
  changes : List Change

/-- `get_posn2` (mask.cpp:74-109). -/
def posn2 (A : Args) (depth : Nat) : Int × Int :=
  let divLen : Int := (1 + A.trebleDodges) * 2
  let hl : Int := A.leadLen / 2
  let firstHl : Bool := decide ((depth : Int) < hl)
  let p : Int := if firstHl then depth else 2 * hl - depth - 2
  let p : Int := if p = -1 then p
    else if p.tmod divLen = divLen - 1 then p.tdiv divLen * 2 + 1
    else p.tdiv divLen * 2
  if A.huntBells = 1 then (p, p)
  else
    let a : Int := p + ((A.huntBells - (if firstHl then 1 else 0) : Int).tdiv 2) * 2
    let b : Int := p - ((A.huntBells - (if firstHl then 0 else 1) : Int).tdiv 2) * 2
    let a := if a > A.bells - 1 then (A.bells : Int) - 1 else a
    let b := if b < -1 then -2 - b else b
    let ab := if b > a then (b, a) else (a, b)
    let a := if ab.1 < p then p else ab.1
    let b := if ab.2 > p then p else ab.2
    (b, a)

/-- `for ( changes_iterator j(nw, nh, nt), e; j != e; ++j )`: the changes visited.  `fuel` bounds their number. -/
def iterateC (nw nh : Nat) : (fuel : Nat) → ChIter → Out (List Change)
  | 0, _ => .timeout
  | fuel + 1, it =>
    if it.fin then .ok []
    else ChIter.nextC nw nh it >>= fun it' => iterateC nw nh fuel it' >>= fun l => .ok (it.c :: l)

/-- All the changes visited by `changes_iterator` (extent.h:254-302). -/
def changesC (fuel nw nh nt : Nat) : Out (List Change) := ChIter.startC nw nh nt >>= iterateC nw nh fuel

/-- `active_above` (mask.cpp:476-483). -/
def activeAbove (A : Args) (i : Nat) : Int :=
  let p := posn2 A i
  let a : Int := if p.2 = (A.trebleBack : Int) - A.trebleFront then (A.bells : Int) - A.trebleBack
    else A.bells - 2 - (p.2 + A.trebleFront - 1)
  if a < 0 then 0 else a

/-- The tests of `select_changes_above` (mask.cpp:493-500). -/
def aboveOk (A : Args) (i : Nat) (a : Change) : Bool :=
  !(A.rightPlace && decide (i % 2 = A.bells % 2) && decide ((A.bells : Int) - a.countPlaces ≠ activeAbove A i)) &&
  !(A.no78 && decide (activeAbove A i > 1) && a.findplace (A.bells - 2))

/-- `select_changes_above` (mask.cpp:472-504). -/
def selectAboveC (fuel : Nat) (A : Args) (i : Nat) : Out (List Change) :=
  changesC fuel (activeAbove A i).toNat (A.bells - (activeAbove A i).toNat) A.bells >>= fun l =>
  .ok (l.filter (aboveOk A i))

/-- `active_below` (mask.cpp:509-513). -/
def activeBelow (A : Args) (i : Nat) : Int :=
  (A.trebleFront : Int) - 1 + (if (posn2 A i).1 = -1 then 0 else (posn2 A i).1)

/-- The tests of `select_changes_below` (mask.cpp:521-530). -/
def belowOk (A : Args) (i : Nat) (b : Change) : Bool :=
  !(A.rightPlace && decide (i % 2 = 0) && decide ((A.bells : Int) - b.countPlaces ≠ activeBelow A i)) &&
  !((A.skewsym || A.doubsym || A.mirrorsym) && A.no78 && decide (activeBelow A i > 1) && b.findplace 1)

/-- `select_changes_below` (mask.cpp:506-534).  `active_below` is negative only for an odd length of the lead; then the
conversion to `unsigned` is not modelled. -/
def selectBelowC (fuel : Nat) (A : Args) (i : Nat) : Out (List Change) :=
  changesC fuel (activeBelow A i).toNat 0 A.bells >>= fun l => .ok (l.filter (belowOk A i))

/-- The tests made both in `select_changes_prin` (mask.cpp:551-576) and in `merge_changes` (mask.cpp:644-664):
-Fx, --changes, -l, -j, --mirror. -/
def commonOk (A : Args) (ch : Change) : Bool :=
  !(A.trueTrivial && decide (ch.countPlaces = A.bells)) &&
  !(!A.changes.isEmpty && (A.includeChanges != A.changes.any (Change.eq ch))) &&
  !(decide (A.maxPlaces ≠ 0) && decide (ch.countPlaces > A.maxPlaces)) &&
  !(decide (A.maxConsec ≠ 0) && hasConsecPlaces ch A.maxConsec) &&
  !(A.mirrorsym && !Change.eq ch ch.reverse)

/-- `select_changes_prin` (mask.cpp:536-581). -/
def selectPrinC (fuel : Nat) (A : Args) (i : Nat) : Out (List Change) :=
  if A.rightPlace = true ∧ A.bells % 2 = 0 ∧ i % 2 = 0 then
    Change.ofStringC A.bells ['-'] >>= fun c => .ok [c]
  else changesC fuel A.bells 0 A.bells >>= fun l => .ok (l.filter fun ch => commonOk A ch &&
    !(A.no78 && ch.findplace (A.bells - 2)) && !((A.skewsym || A.doubsym) && A.no78 && ch.findplace 1))

/-- `swappair` of an `int`, converted to a `bell`. -/
def swappairInt (c : Change) (i : Int) : Out Change :=
  Change.swappairC c (i % 256).toNat >>= fun p => .ok p.2

/-- The first and the third loop of `merge_changes` (mask.cpp:589-591, 596-598): from `i` below `hi`, with `fuel`
steps left. -/
def copyLoop (x : Change) (hi : Int) : (fuel : Nat) → (i : Int) → Change → Out Change
  | 0, _, c => .ok c
  | fuel + 1, i, c =>
    if i < hi then
      if Method.findswapInt x i then swappairInt c i >>= fun c => copyLoop x hi fuel (i + 2) c
      else copyLoop x hi fuel (i + 1) c
    else .ok c

/-- The second loop of `merge_changes` (mask.cpp:593-594). -/
def huntLoop (hi : Int) : (fuel : Nat) → (i : Int) → Change → Out Change
  | 0, _, c => .ok c
  | fuel + 1, i, c => if i < hi then swappairInt c i >>= fun c => huntLoop hi fuel (i + 2) c else .ok c

/-- `merge_changes` of two changes (mask.cpp:583-601); there are at most as many steps as there are integers from
the first to the last value of the counter. -/
def merge2C (a b : Change) (posn : Int × Int) : Out Change :=
  let n1 : Int := (a.n : Int) - 1
  copyLoop b (min posn.1 n1) (min posn.1 n1).toNat 0 ⟨a.n, []⟩ >>= fun c =>
  huntLoop (min posn.2 n1) (min posn.2 n1 - posn.1).toNat posn.1 c >>= fun c =>
  copyLoop a n1 (n1 - posn.2).toNat posn.2 c

/-- The positions of the lowest and the highest moving hunt bell in `merge_changes` (mask.cpp:608-633). -/
def mergePosn (A : Args) (i : Nat) : Int × Int :=
  let p := posn2 A i
  let x := if p.1 = -1 then 0 else p.1
  let y := if p.2 = (A.trebleBack : Int) - A.trebleFront then p.2 - 1 else p.2
  let x := x + (A.trebleFront - 1)
  let y := y + A.trebleFront
  let last := decide (i % (2 * A.trebleDodges + 2) = 2 * A.trebleDodges + 1)
  let x := if x = A.trebleFront - 1 && last then x + 1 else x
  let y := if y = (A.trebleBack : Int) - 1 &&
      (decide ((A.trebleBack - A.trebleFront) % 2 = 1) && last ||
        decide ((A.trebleBack - A.trebleFront) % 2 = 0) && decide (i % 2 = 0)) then y - 1 else y
  (x, y)

/-- The inner loop of `merge_changes` (mask.cpp:639-666), over the changes below. -/
def mergeInnerC (A : Args) (i : Nat) (a : Change) : List Change → Out (List Change)
  | [] => .ok []
  | b :: bs =>
    merge2C a b (mergePosn A i) >>= fun ch => mergeInnerC A i a bs >>= fun l =>
    .ok (if commonOk A ch then ch :: l else l)

/-- `merge_changes` of lists of changes (mask.cpp:603-668). -/
def mergeC (A : Args) (i : Nat) : (above below : List Change) → Out (List Change)
  | [], _ => .ok []
  | a :: as, below => mergeInnerC A i a below >>= fun l => mergeC A i as below >>= fun l' => .ok (l ++ l')

/-- Insertion in a list sorted by `compare_changes`. -/
def insertC (x : Change) : List Change → Out (List Change)
  | [] => .ok [x]
  | y :: ys => compareChangesC y x >>= fun lt => if lt then insertC x ys >>= fun l => .ok (y :: l) else .ok (x :: y :: ys)

/-- `sort( changes_to_try.begin(), changes_to_try.end(), &compare_changes );` (mask.cpp:854) -/
def sortC : List Change → Out (List Change)
  | [] => .ok []
  | x :: xs => sortC xs >>= insertC x

/-- `unique` (mask.cpp:855-857). -/
def uniq : List Change → List Change
  | [] => []
  | x :: xs => match uniq xs with
    | [] => [x]
    | y :: ys => if Change.eq x y then y :: ys else x :: y :: ys

/-- The changes at position `i` (mask.cpp:829-861), if they are found afresh: `above` and `below` are those the mask
names. -/
def positionC (fuel : Nat) (A : Args) (above below : List Change) (i : Nat) : Out (List Change) :=
  (if A.huntBells ≠ 0 then
    (if above = [] then selectAboveC fuel A i else .ok above) >>= fun a =>
    (if below = [] then selectBelowC fuel A i else .ok below) >>= fun b => mergeC A i a b
  else if above = [] then selectPrinC fuel A i else .ok above) >>= fun l =>
  sortC l >>= fun l => if uniq l = [] then .throw .invalidArgument else .ok (uniq l)

/-- The loop of `parse_mask` (mask.cpp:820-862): `acc` is `args.allowed_changes`, `i` the position. -/
def allowedLoop (fuel : Nat) (A : Args) : (above below : List (List Change)) → (acc : List (List Change)) → Out (List (List Change))
  | a :: as, b :: bs, acc =>
    if A.huntBells ≠ 0 ∨ acc.length < (if A.rightPlace then 2 else 1) then
      positionC fuel A a b acc.length >>= fun l => allowedLoop fuel A as bs (acc ++ [l])
    else
      -- the changes of an earlier position are kept, they are not empty (mask.cpp:826-832)
      match acc[if A.rightPlace then acc.length % 2 else 0]? with
      | none => .ub
      | some l => if l = [] then positionC fuel A a b acc.length >>= fun l => allowedLoop fuel A as bs (acc ++ [l])
        else allowedLoop fuel A as bs (acc ++ [l])
  | _, _, acc => .ok acc

end Mask
end Ringing
