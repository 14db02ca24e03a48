import Verif.Model.Wildcard
import Verif.Model.NamedRows
/-
Model of `music_details`, `music_node` and `music` (ringing/music.h, ringing/music.cpp).  Strokes are a
boolean, `true` for backstroke.  All nodes of a tree have the same number of bells, which is not stored in
them.
-/
namespace Ringing

/-- `music_details` (music.h:116-120). -/
structure MusicDetails where
  pat : Wildcard
  counth : Nat
  countb : Nat
  scoreh : Int
  scoreb : Int
  wilds : List Nat
  deriving DecidableEq, Repr

/-- Conversion to `int`. -/
def i32 (x : Int) : Int := (x + 2147483648) % 4294967296 - 2147483648

namespace MusicDetails

/-- `music_details( pattern, scoreh, scoreb )` (music.cpp:109-112) with `set` (music.cpp:127-135). -/
def newC (pat : List Char) (sh sb : Int) : Out MusicDetails :=
  Wildcard.newC pat 0 >>= fun w => .ok ⟨w, 0, 0, sh, sb, []⟩

/-- `check_bells` (music.cpp:201-208). -/
def checkBellsC (d : MusicDetails) (bells : Nat) : Out MusicDetails :=
  d.pat.setBellsC bells >>= fun w => .ok { d with pat := w }

/-- `increment` (music.cpp:195-199). -/
def increment (d : MusicDetails) (back : Bool) : MusicDetails :=
  if back then { d with countb := u32 (d.countb + 1) } else { d with counth := u32 (d.counth + 1) }

/-- `clear` (music.cpp:189-192). -/
def clear (d : MusicDetails) : MusicDetails := { d with counth := 0, countb := 0 }

/-- `count( eHandstroke )`, `count( eBackstroke )` and `count( eBoth )` (music.cpp:154-162); `none` is both. -/
def count (d : MusicDetails) : Option Bool → Nat
  | some false => d.counth
  | some true => d.countb
  | none => u32 (d.counth + d.countb)

/-- `total` (music.cpp:165-173): the products are taken in `unsigned`. -/
def total (d : MusicDetails) : Option Bool → Int
  | some false => i32 (d.counth * d.scoreh)
  | some true => i32 (d.countb * d.scoreb)
  | none => i32 (d.counth * d.scoreh + d.countb * d.scoreb)

/-- `possible_matches` (music.cpp:149-152): converted to `unsigned`. -/
def possibleMatchesC (d : MusicDetails) (bells fuel : Nat) : Out Nat :=
  d.pat.countC bells fuel >>= fun x => .ok (u32 x)

/-- `possible_score` (music.cpp:142-147): the product is taken in `unsigned`. -/
def possibleScoreC (d : MusicDetails) (bells fuel : Nat) : Out Int :=
  d.possibleMatchesC bells fuel >>= fun x => .ok (i32 (x * (if d.scoreh > d.scoreb then d.scoreh else d.scoreb)))

end MusicDetails

/-- `music_node` (music.cpp:37-75): the map of subnodes and `detailsmatch`.  The map is a list of keys and
nodes; only `find` and `operator[]` are used on it, so the order does not matter. -/
inductive MNode
  | node (subs : List (Nat × MNode)) (dm : List Nat)

namespace MNode

/-- `music_node( b )` (music.cpp:41). -/
def new : MNode := .node [] []

/-- `detailsmatch.push_back( key )` (music.cpp:236, 275). -/
def pushKey (n : MNode) (key : Nat) : MNode :=
  match n with
  | .node subs dm => .node subs (dm ++ [key])

/-- `subnodes[place]`, made if it is not there (music.cpp:305-306), replaced by what `f` makes of it. -/
def updSubs (place : Nat) (f : MNode → Out MNode) : List (Nat × MNode) → Out (List (Nat × MNode))
  | [] => f new >>= fun n => .ok [(place, n)]
  | (k, n) :: subs =>
    if k = place then f n >>= fun n' => .ok ((k, n') :: subs)
    else updSubs place f subs >>= fun s => .ok ((k, n) :: s)

def updC (place : Nat) (f : MNode → Out MNode) (n : MNode) : Out MNode :=
  match n with
  | .node subs dm => updSubs place f subs >>= fun s => .ok (.node s dm)

/-- The loop over a set of alternatives (music.cpp:259-270); `f` adds the rest of the pattern, after the
closing bracket, to a subnode.  Running off the end of the pattern is undefined behaviour. -/
def setLoop (f : MNode → Out MNode) : (fuel : Nat) → List Char → MNode → Out MNode
  | 0, _, _ => .timeout
  | _ + 1, [], _ => .ub
  | fuel + 1, c :: cs, n =>
    if c = ']' then .ok n
    else if Bell.isSymbol c ∨ c = '{' then
      Bell.readExtended (c :: cs) >>= fun be => updC (be.1 + 1) f n >>= fun n' => setLoop f fuel be.2 n'
    else .throw .invalidArgument

/-- `add` (music.cpp:230-301) and `add_to_subtree` (music.cpp:303-324).  `s` is the rest of the pattern from
offset `i`, the only part of it that is looked at; `down` is `add` for a subnode.  The recursion that skips a
star is on the pattern. -/
def addGo (bells : Nat) (down : List Char → (key pos : Nat) → MNode → Out MNode) : List Char → (key pos : Nat) → MNode →
    Out MNode
  | [], key, _, n => .ok (n.pushKey key)
  | c :: cs, key, pos, n =>
    if pos > bells then .ok n
    else if Bell.isSymbol c ∨ c = '{' then
      Bell.readExtended (c :: cs) >>= fun be => updC (be.1 + 1) (down be.2 key (pos + 1)) n
    else if c = '?' then updC 0 (down cs key (pos + 1)) n
    else if c = '[' then
      setLoop (down (cs.drop (cs.findIdx (· == ']') + 1)) key (pos + 1)) (cs.length + 1) cs n
    else if c = '*' then
      if cs = [] then .ok (n.pushKey key)
      else if cs.contains '*' = false then
        (if bells - pos = Wildcard.countBells (c :: cs) + 1 then updC 0 (down cs key (pos + 1)) n
         else updC 0 (down (c :: cs) key (pos + 1)) n)
      else
        addGo bells down cs key pos n >>= fun n' =>
        if (c :: cs).length ≥ pos then updC 0 (down (c :: cs) key (pos + 1)) n'
        else updC 0 (down cs key (pos + 1)) n'
    else .throw .invalidArgument

/-- `add` with its recursion down the tree: the code stops when `pos` exceeds the number of bells, so that a
fuel of two more than the number of bells is enough from the top node. -/
def addC (bells : Nat) : (fuel : Nat) → List Char → (key pos : Nat) → MNode → Out MNode
  | 0, _, _, _, _ => .timeout
  | fuel + 1, s, key, pos, n => addGo bells (addC bells fuel) s key pos n

/-- The loop over `detailsmatch` (music.cpp:332-342). -/
def dmLoop (back : Bool) (w : List Nat) : List Nat → List MusicDetails → Out (List MusicDetails)
  | [], res => .ok res
  | k :: ks, res =>
    vget res k >>= fun d => vset res k { d.increment back with wilds := w } >>= fun res => dmLoop back w ks res

mutual
/-- `match` (music.cpp:326-361).  `rd` is `r[pos]` and `tl pos` the bells of the row from `pos` on. -/
def matchC (rd : Nat → Out Nat) (tl : Nat → List Nat) (back : Bool) : MNode → (pos : Nat) → List Nat →
    List MusicDetails → Out (List MusicDetails × Bool)
  | .node subs dm, pos, wilds, res =>
    dmLoop back (wilds ++ tl pos) dm res >>= fun res =>
    (if hasKey 0 subs then rd pos >>= fun x => matchSub rd tl back 0 subs (pos + 1) (wilds ++ [x]) res
     else .ok (res, false)) >>= fun r1 =>
    rd pos >>= fun x => matchSub rd tl back (x + 1) subs (pos + 1) wilds r1.1 >>= fun r2 =>
    .ok (r2.1, r2.2 || (r1.2 || !dm.isEmpty))
/-- `subnodes.find( place )` and the call of `match` for it (music.cpp:345-358). -/
def matchSub (rd : Nat → Out Nat) (tl : Nat → List Nat) (back : Bool) (place : Nat) : List (Nat × MNode) → (pos : Nat) →
    List Nat → List MusicDetails → Out (List MusicDetails × Bool)
  | [], _, _, res => .ok (res, false)
  | (k, n) :: subs, pos, wilds, res =>
    if k = place then matchC rd tl back n pos wilds res else matchSub rd tl back place subs pos wilds res
/-- Whether `subnodes.find( place )` finds a subnode. -/
def hasKey (place : Nat) : List (Nat × MNode) → Bool
  | [] => false
  | (k, _) :: subs => k = place || hasKey place subs
end

end MNode

/-- `music` (music.h:222-227). -/
structure Music where
  info : List MusicDetails
  top : MNode
  b : Nat

namespace Music

/-- `music( b )` (music.cpp:367-371). -/
def new (b : Nat) : Music := ⟨[], MNode.new, b⟩

/-- `push_back` (music.cpp:388-395).  The argument is changed through its `const` reference, which is not
modelled; the stored copy is. -/
def pushBackC (m : Music) (d : MusicDetails) : Out Music :=
  (if m.b ≠ 0 then d.checkBellsC m.b else .ok d) >>= fun d =>
  MNode.addC m.b (m.b + 2) d.pat.pat m.info.length 0 m.top >>= fun t => .ok ⟨m.info ++ [d], t, m.b⟩

/-- `music( b, md )` (music.cpp:373-378). -/
def newWithC (b : Nat) (d : MusicDetails) : Out Music := (new b).pushBackC d

/-- `append` (music.h:141-147). -/
def appendC (m : Music) (ds : List MusicDetails) : Out Music := ds.foldlM pushBackC m

/-- `reset_music` (music.cpp:409-414). -/
def reset (m : Music) : Music := { m with info := m.info.map MusicDetails.clear }

/-- `clear` (music.cpp:380-385). -/
def clear (m : Music) (newB : Nat) : Music :=
  (⟨m.info, MNode.new, if newB ≠ 0 then newB else m.b⟩ : Music).reset

/-- `set_bells` (music.cpp:397-406), when it does not throw. -/
def setBellsC (m : Music) (b : Nat) : Out Music :=
  if m.b ≠ b then m.info.mapM (fun d => d.checkBellsC b) >>= fun i => .ok ⟨i, m.top, b⟩ else .ok m

/-- `process_row` (music.cpp:418-425), where `rd` reads a bell of the row. -/
def processC (m : Music) (rd : Nat → Out Nat) (r : Row) (back : Bool) : Out (Music × Bool) :=
  m.top.matchC rd (fun pos => r.drop pos) back 0 [] (m.info.map fun d => { d with wilds := [] }) >>= fun x =>
  .ok ({ m with info := x.1 }, x.2)

/-- `process_row` as it is: reading past the end of the row is undefined behaviour. -/
def processRowC (m : Music) (r : Row) (back : Bool) : Out (Music × Bool) := processC m (vget r) r back

/-- `process_rows` (music.h:161-168). -/
def processLoop (m : Music) (rd : Row → Nat → Out Nat) : List Row → Bool → Out Music
  | [], _ => .ok m
  | r :: rs, back => processC m (rd r) r back >>= fun x => processLoop x.1 rd rs (!back)

def processRowsC (m : Music) (rd : Row → Nat → Out Nat) (rs : List Row) (back : Bool) : Out Music :=
  processLoop m.reset rd rs back

/-- A sum of `int`s: overflow is undefined behaviour. -/
def sumC : List Int → Int → Out Int
  | [], t => .ok t
  | x :: xs, t => if -2147483648 ≤ t + x ∧ t + x < 2147483648 then sumC xs (t + x) else .ub

/-- `get_score` (music.cpp:428-434). -/
def getScoreC (m : Music) (st : Option Bool) : Out Int := sumC (m.info.map fun d => d.total st) 0

/-- `get_count` (music.cpp:437-443). -/
def getCount (m : Music) (st : Option Bool) : Nat := m.info.foldl (fun t d => u32 (t + d.count st)) 0

/-- `match_pos` (music.h:190). -/
inductive Pos
  | anywhere | front | back
  deriving DecidableEq, Repr

/-- `os << bell( i )` for each bell. -/
def bellsText (l : List Nat) : List Char := l.flatMap Bell.write

/-- `make_runs_match` (music.cpp:454-480). -/
def makeRunsC (b n : Nat) (pos : Pos) (dir : Int) (sh sb : Int) : Out Music :=
  let pre : List Char := if pos ≠ .front then ['*'] else []
  let suf : List Char := if pos ≠ .back then ['*'] else []
  let starts := List.range (b + 1 - n)
  (if dir ≥ 0 then starts.map fun i => pre ++ bellsText ((List.range n).map (i + ·)) ++ suf else []) ++
    (if dir ≤ 0 then starts.map fun i => pre ++ bellsText ((List.range n).reverse.map (i + ·)) ++ suf else []) |>.foldlM
    (fun m p => MusicDetails.newC p sh sb >>= fun d => m.pushBackC d) (new b)

/-- `make_cru_match` (music.cpp:505-521). -/
def makeCruC (b : Nat) (sh sb : Int) : Out Music :=
  (if b ≥ 6 then [3, 4, 5].flatMap fun i => ([3, 4, 5].filter (i ≠ ·)).map fun j =>
      '*' :: bellsText (i :: j :: (List.range (b - 6)).map (6 + ·)) else []).foldlM
    (fun m p => MusicDetails.newC p sh sb >>= fun d => m.pushBackC d) (new b)

end Music
end Ringing
