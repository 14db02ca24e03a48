import Verif.Model.Method
import Verif.Model.Music
/-
Model of `musical_analysis::analyse` (apps/methsearch/music.cpp:190-245): which rows of a method are searched for music.
The reading of the options into blocks (music.cpp:83-183) is not modelled; the blocks are a list in the order of the map.
-/
namespace Ringing
namespace MethMusic

/-- `analyser::length` (music.cpp:76-77). -/
inductive Len | halfLead | halfLead2 | halfLeadR | halfLead2R | lead | course
  deriving DecidableEq, Repr

/-- An entry of `musv` (music.cpp:79). -/
structure Block where
  start : Row
  len : Len
  mus : Music

/-- `transform( b, e, back_inserter(rows), permute(r) )` (row.h:191-201): each row after its change; with the last `r`. -/
def preC : List Change → Row → Out (List Row × Row)
  | [], r => .ok ([], r)
  | c :: cs, r => Row.applyC r c >>= fun s => preC cs s >>= fun p => .ok (s :: p.1, p.2)

/-- `transform( b, e, back_inserter(rows), post_permute(r) )` (row.h:220-230): each row before its change; with the last `r`. -/
def postC : List Change → Row → Out (List Row × Row)
  | [], r => .ok ([], r)
  | c :: cs, r => Row.applyC r c >>= fun s => postC cs s >>= fun p => .ok (r :: p.1, p.2)

/-- The loop for a course (music.cpp:203-205), `fuel` bounds the number of leads. -/
def courseC (ch : List Change) (start : Row) : (fuel : Nat) → Row → Out (List Row)
  | 0, _ => .timeout
  | fuel + 1, r => preC ch r >>= fun p => if p.2 = start then .ok p.1 else courseC ch start fuel p.2 >>= fun q => .ok (p.1 ++ q)

/-- `rbegin() + i` to `rbegin() + j` for `i ≤ j`: undefined behaviour past `rend()`. -/
def revC (ch : List Change) (i j : Nat) : Out (List Change) :=
  if j ≤ ch.length ∧ i ≤ ch.length then .ok ((ch.reverse.take j).drop i) else .ub

/-- The rows (music.cpp:198-236). -/
def rowsC (fuel : Nat) (m : Method) (start : Row) : Len → Out (List Row)
  | .course => courseC m.ch start fuel start
  | .lead => postC m.ch start >>= fun p => .ok p.1
  | .halfLead => postC (m.ch.take (m.ch.length / 2)) start >>= fun p => .ok p.1
  | .halfLead2 => postC (m.ch.drop (m.ch.length / 2)) start >>= fun p => .ok p.1
  | .halfLeadR => revC m.ch (m.ch.length / 2 + 1) m.ch.length >>= fun cs => postC cs start >>= fun p => .ok (p.1 ++ [p.2])
  | .halfLead2R => revC m.ch 1 (m.ch.length / 2 + 1) >>= fun cs => postC cs start >>= fun p => .ok p.1

/-- The loop of `analyse` (music.cpp:192-245), where `rd` reads a bell of a row; overflow of the sum is undefined. -/
def analyseC (fuel : Nat) (m : Method) (rd : Row → Nat → Out Nat) : List Block → (score : Int) → Out (List Block × Int)
  | [], s => .ok ([], s)
  | B :: bs, s =>
    rowsC fuel m B.start B.len >>= fun rows => B.mus.processRowsC rd rows false >>= fun mu => mu.getScoreC none >>= fun x =>
    (if -2147483648 ≤ s + x ∧ s + x < 2147483648 then analyseC fuel m rd bs (s + x) else .ub) >>= fun p =>
    .ok ({ B with mus := mu } :: p.1, p.2)

end MethMusic
end Ringing
