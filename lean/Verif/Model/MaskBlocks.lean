import Verif.Model.Mask
/-
Model of the blocks of a mask (apps/methsearch/mask.cpp): how the `*` of a mask is expanded to the length of the lead, the
check that the mask has the symmetries asked for, and the restriction of --changes by them.  The text of the mask is not
modelled: a block is what `read_block` returns.
-/
namespace Ringing
namespace Mask

/-- `block` (mask.cpp:111-118); `star` is `star_idx` if `got_star`. An empty list of changes stands for `?` and `*`. -/
structure Block where
  data : List (List Change)
  isSym : Bool
  star : Option Nat

/-- The last step of `read_block` (mask.cpp:245-249): a symmetric block is reflected in its last change.  Without any change
`rbegin() + 1` is past the end. -/
def reflectC (b : Block) : Out Block :=
  if b.isSym then (if b.data = [] then .ub else .ok { b with data := b.data ++ b.data.reverse.drop 1 }) else .ok b

/-- `block1.insert( block1.begin() + pos, n, vector<change>() )`: `length_error` for more elements than a vector may have. -/
def insertEmptyC (l : List (List Change)) (pos n : Nat) : Out (List (List Change)) :=
  if n + l.length > (2 ^ 63 - 1) / 24 then .throw .logicError else .ok (l.take pos ++ List.replicate n [] ++ l.drop pos)

/-- `expand_block` (mask.cpp:255-309); `by'` is `expand_by`, a `size_t`, so that `expand_by < 0` never holds. -/
def expandBlockC (l : List (List Change)) (sym : Bool) (idx by' : Nat) : Out (List (List Change)) :=
  if sym = true ∧ l.length % 2 = 0 then .ub
  else if sym = true ∧ idx + 1 = (l.length + 1) / 2 then
    let n := (by' + 1) % 2 ^ 64
    if n % 2 = 0 then .throw .invalidArgument
    else if n > 1 then insertEmptyC l idx (n - 1) else .ok l
  else if sym = true then
    let n := (by' + 2) % 2 ^ 64
    if n % 2 = 1 then .throw .invalidArgument
    else if n = 0 then .ok ((l.eraseIdx (l.length - 1 - idx)).eraseIdx idx)
    else if n > 3 then insertEmptyC l (l.length - 1 - idx) (n / 2 - 1) >>= fun l => insertEmptyC l idx (n / 2 - 1) else .ok l
  else
    let n := (by' + 1) % 2 ^ 64
    if n = 0 then .ok (l.eraseIdx idx)
    else if n > 1 then insertEmptyC l idx (n - 1) else .ok l

/-- The collections of blocks (mask.cpp:322-332). -/
structure Blocks where
  a0 : List (List Change) := []
  b0 : List (List Change) := []
  a1 : List (List Change) := []
  b1 : List (List Change) := []
  a2 : List (List Change) := []
  b2 : List (List Change) := []
  starA : Nat := 0
  starB : Nat := 0
  symA : Bool := false
  symB : Bool := false

/-- Appending a block to the collections (mask.cpp:401-418). -/
def appendBlock (s : Blocks) (gotStar : Bool) (la lb : List (List Change)) : Blocks :=
  let s := if gotStar then { s with a1 := s.a1 ++ la } else if s.a1 = [] then { s with a0 := s.a0 ++ la } else { s with a2 := s.a2 ++ la }
  if gotStar then { s with b1 := s.b1 ++ lb } else if s.b1 = [] then { s with b0 := s.b0 ++ lb } else { s with b2 := s.b2 ++ lb }

/-- One turn of the loop of `read_and_expand_blocks` (mask.cpp:342-418) for a block above and perhaps one below. -/
def addBlockC (hunts : Nat) (s : Blocks) (blk : Block × Option Block) : Out Blocks :=
  let a := blk.1
  match blk.2 with
  | some b =>
    if hunts = 0 then .throw .invalidArgument
    else match a.star, b.star with
    | none, none =>
      if a.data.length ≠ b.data.length then .throw .invalidArgument else .ok (appendBlock s false a.data b.data)
    | some ia, some ib =>
      if s.a1 ≠ [] then .throw .invalidArgument
      else .ok (appendBlock { s with starA := ia, symA := a.isSym, starB := ib, symB := b.isSym } true a.data b.data)
    | some ia, none =>
      expandBlockC a.data a.isSym ia (MethodUtils.subSize b.data.length a.data.length) >>= fun l =>
      if l.length ≠ b.data.length then .ub else .ok (appendBlock s false l b.data)
    | none, some ib =>
      expandBlockC b.data b.isSym ib (MethodUtils.subSize a.data.length b.data.length) >>= fun l =>
      if a.data.length ≠ l.length then .ub else .ok (appendBlock s false a.data l)
  | none => match a.star with
    | some ia =>
      if s.a1 ≠ [] then .throw .invalidArgument
      else .ok (appendBlock { s with starA := ia, symA := a.isSym, starB := ia, symB := a.isSym } true a.data a.data)
    | none => .ok (appendBlock s false a.data a.data)

/-- Reading the block below, if there is one (mask.cpp:352-356). -/
def reflectOptC : Option Block → Out (Option Block)
  | none => .ok none
  | some b => reflectC b >>= fun b => .ok (some b)

/-- A turn of the loop with the end of `read_block` for its blocks as written (mask.cpp:342-418).  In the code the test of
the hunt bells stands before the block below is read; a block without changes that is reflected is undefined in both. -/
def turnC (hunts : Nat) (s : Blocks) (w : Block × Option Block) : Out Blocks :=
  reflectC w.1 >>= fun a => reflectOptC w.2 >>= fun b => addBlockC hunts s (a, b)

/-- The loop over the blocks. -/
def addBlocksC (hunts : Nat) : List (Block × Option Block) → Blocks → Out Blocks
  | [], s => .ok s
  | b :: bs, s => turnC hunts s b >>= addBlocksC hunts bs

/-- The end of `read_and_expand_blocks` (mask.cpp:428-466), with the assertions. -/
def finishBlocksC (leadLen : Nat) (s : Blocks) : Out (List (List Change) × List (List Change)) :=
  if s.a0.length ≠ s.b0.length ∨ (s.a1 = [] ↔ s.b1 ≠ []) ∨ s.a2.length ≠ s.b2.length then .ub
  else if s.a1 ≠ [] ∧ s.b1 ≠ [] then
    expandBlockC s.a1 s.symA s.starA (MethodUtils.subSize (MethodUtils.subSize (MethodUtils.subSize leadLen s.a0.length) s.a1.length) s.a2.length) >>= fun la =>
    expandBlockC s.b1 s.symB s.starB (MethodUtils.subSize (MethodUtils.subSize (MethodUtils.subSize leadLen s.b0.length) s.b1.length) s.b2.length) >>= fun lb =>
    if s.a0.length + la.length + s.a2.length ≠ leadLen ∨ s.b0.length + lb.length + s.b2.length ≠ leadLen then .ub
    else .ok (s.a0 ++ la ++ s.a2, s.b0 ++ lb ++ s.b2)
  else if s.a0.length + s.a2.length ≠ leadLen then .throw .invalidArgument
  else .ok (s.a0 ++ s.a1 ++ s.a2, s.b0 ++ s.b1 ++ s.b2)

/-- `read_and_expand_blocks` (mask.cpp:311-470) for the blocks as written. -/
def expandC (hunts leadLen : Nat) (blocks : List (Block × Option Block)) : Out (List (List Change) × List (List Change)) :=
  addBlocksC hunts blocks {} >>= finishBlocksC leadLen

/-! ### Consistency with the symmetries -/

/-- `unordered_equal` (mask.cpp:688-695). -/
def unorderedEqual (a b : List Change) : Bool := a.all fun x => b.any fun y => Change.eq y x

/-- `reverse_allowed` (mask.cpp:677-686): only used in `unordered_equal`, so without the sort. -/
def reverseAllowed (l : List Change) : List Change := l.map Change.reverse

/-- The tests of the masks above and below at two positions that are related by a reversal. -/
def crossOk (a1 b1 a2 b2 : List Change) : Bool :=
  !(!a1.isEmpty && !b2.isEmpty && !unorderedEqual a1 (reverseAllowed b2)) &&
  !(!b1.isEmpty && !a2.isEmpty && !unorderedEqual b1 (reverseAllowed a2))

/-- The tests that --sym makes. -/
def mirrorOk (a1 b1 a2 b2 : List Change) : Bool :=
  !(!a1.isEmpty && !a2.isEmpty && !unorderedEqual a1 a2) && !(!b1.isEmpty && !b2.isEmpty && !unorderedEqual b1 b2)

/-- A test of the masks at two positions. -/
def pickC (above below : List (List Change)) (d j : Nat) (f : List Change → List Change → List Change → List Change → Bool) : Out Bool :=
  match above[d]?, below[d]?, above[j]?, below[j]? with
  | some a1, some b1, some a2, some b2 => .ok (f a1 b1 a2 b2)
  | _, _, _, _ => .ub

/-- One turn of the loop of `is_mask_consistent` (mask.cpp:705-767). -/
def consistentAtC (A : Args) (above below : List (List Change)) (depth : Nat) : Out Bool :=
  let hl := A.leadLen / 2
  let d2 : Int := (if depth > hl then 3 else 1) * (hl : Int) - A.huntBells % 2 * 2 - depth
  if A.skewsym = true ∧ (d2 < 0 ∨ d2 ≥ hl * 2 ∨ d2 = depth) then .ok true
  else
    (if A.skewsym then pickC above below depth d2.toNat crossOk else .ok true) >>= fun x =>
    if x = false then .ok false
    else
      (if A.doubsym then pickC above below depth ((depth + hl) % (2 * hl)) crossOk else .ok true) >>= fun x =>
      if x = false then .ok false
      else if A.sym then
        let off := if A.huntBells ≠ 0 ∧ A.huntBells % 2 = 0 then 1 else 0
        let d3 : Int := 2 * ((hl : Int) - 1 + off) - depth
        if d3 < 0 ∨ d3 ≥ 2 * hl then .ok true
        else pickC above below depth d3.toNat mirrorOk
      else .ok true

/-- `is_mask_consistent` (mask.cpp:697-770): from `depth` on, `k` positions left. -/
def consistentLoopC (A : Args) (above below : List (List Change)) : (k depth : Nat) → Out Bool
  | 0, _ => .ok true
  | k + 1, depth => consistentAtC A above below depth >>= fun x => if x then consistentLoopC A above below k (depth + 1) else .ok false

/-- `is_mask_consistent` (mask.cpp:697-770). -/
def consistentC (A : Args) (above below : List (List Change)) : Out Bool := consistentLoopC A above below (2 * (A.leadLen / 2)) 0

/-! ### --changes -/

/-- `changes_have_double_symmetry` (mask.cpp:772-787) on a set given as a list. -/
def doubleSymmetry (includeChanges : Bool) (cs : List Change) : List Change :=
  let asym := cs.filter fun c => !cs.any (Change.eq c.reverse)
  if includeChanges then cs.filter fun c => !asym.any (Change.eq c)
  else cs ++ asym.map Change.reverse

/-- `restrict_changes` (mask.cpp:791-800). -/
def restrictC (A : Args) : Out Args :=
  if A.changes ≠ [] then
    let cs := if A.skewsym || A.doubsym then doubleSymmetry A.includeChanges A.changes else A.changes
    if cs = [] then .throw .invalidArgument else .ok { A with changes := cs }
  else .ok A

end Mask
end Ringing
