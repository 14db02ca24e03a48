import Verif.Model.Music
import Verif.Model.Library
/-
Model of the named and scored music strings of class `music` (ringing/music.cpp:484-501, 523-604).
-/
namespace Ringing
namespace Music
open Lib (Str)

/-- `strtol( s, &endp, 10 )` on a C string: white space, an optional sign and digits, and the rest of the string
behind them.  The value is limited to 64 bits; without digits it is 0 and nothing is read. -/
def strtol (s : Str) : Int × Str :=
  let t := s.dropWhile Bell.isSpace
  let u := if t.head? = some '-' ∨ t.head? = some '+' then t.tail else t
  let ds := u.takeWhile Bell.isDigit
  if ds = [] then (0, s)
  else
    let v : Int := if t.head? = some '-' then -(Lib.digitsValue ds : Int) else Lib.digitsValue ds
    (max (-2 ^ 63) (min v (2 ^ 63 - 1)), u.dropWhile Bell.isDigit)

/-- `read_len` (music.cpp:484-501).  The `long` is converted to `int`. -/
def readLen (bells offset : Nat) (name : Str) : Out Nat :=
  let r := strtol ((Lib.cStr name).drop offset)
  let n := i32 r.1
  if r.2 ≠ "-runs".toList then .throw .invalidArgument
  else if n > bells then .throw .invalidArgument
  else if n < 3 then .throw .invalidArgument
  else .ok n.toNat

/-- `row::print` (row.cpp:216-227). -/
def rowText (r : Row) : Str := r.map Bell.toChar

/-- `push_back( music_details( r.print(), sh, sb ) )`. -/
def pushRowC (m : Music) (r : Row) (sh sb : Int) : Out Music :=
  MusicDetails.newC (rowText r) sh sb >>= fun d => m.pushBackC d

/-- `n.find("-runs") != string::npos`. -/
def hasRuns (n : Str) : Bool := (Lib.findSub "-runs".toList n 0).isSome

/-- `add_named_music` (music.cpp:523-565), for less than 2^31 bells. -/
def addNamedC (m : Music) (n : Str) (sh sb : Int) : Out Music :=
  if n = "rounds".toList then m.pushRowC (Row.roundsC m.b) sh sb
  else if n = "queens".toList then Row.queensC m.b >>= fun r => m.pushRowC r sh sb
  else if n = "kings".toList then Row.kingsC m.b >>= fun r => m.pushRowC r sh sb
  else if n = "tittums".toList then Row.tittumsC m.b >>= fun r => m.pushRowC r sh sb
  else if n = "reverse-rounds".toList then Row.reverseRoundsC m.b >>= fun r => m.pushRowC r sh sb
  else if n = "CRUs".toList then makeCruC m.b sh sb >>= fun c => m.appendC c.info
  else if n.length > 11 ∧ n.take 6 = "front-".toList ∧ hasRuns n then
    readLen m.b 6 n >>= fun l => makeRunsC m.b l .front 0 sh sb >>= fun c => m.appendC c.info
  else if n.length > 10 ∧ n.take 5 = "back-".toList ∧ hasRuns n then
    readLen m.b 5 n >>= fun l => makeRunsC m.b l .back 0 sh sb >>= fun c => m.appendC c.info
  else if n.length > 5 ∧ hasRuns n then
    readLen m.b 0 n >>= fun l => makeRunsC m.b l .anywhere 0 sh sb >>= fun c => m.appendC c.info
  else .throw .invalidArgument

/-- The loop of `add_scored_music_string` (music.cpp:576-594): `comma` is the place of the comma that has been
seen, and `j` the place of the rest of the pattern.  The results are the scores and the pattern. -/
def scanScores (pattern : Str) : Str → (j : Nat) → (comma : Option Nat) → (sh sb : Int) → Out (Int × Int × Str)
  | [], _, _, sh, sb => .ok (sh, sb, pattern)
  | c :: cs, j, comma, sh, sb =>
    if c = ':' then
      match comma with
      | none => Lib.atoi (Lib.cStr pattern) >>= fun v => .ok (v, v, pattern.drop (j + 1))
      | some k => Lib.atoi (Lib.cStr ((pattern.drop (k + 1)).take (j - k - 1))) >>= fun v => .ok (sh, v, pattern.drop (j + 1))
    else if c = ',' then
      if comma ≠ none then .throw .runtimeError
      else Lib.atoi (Lib.cStr pattern) >>= fun v => scanScores pattern cs (j + 1) (some j) v sb
    else if !Bell.isDigit c ∧ c ≠ '-' then .ok (sh, sb, pattern)
    else scanScores pattern cs (j + 1) comma sh sb

/-- The scores and the pattern of a string (music.cpp:569-595). -/
def scoresC (s : Str) : Out (Int × Int × Str) :=
  match s with
  | [] => .ok (1, 1, s)
  | c :: _ => if s.length > 2 ∧ (Bell.isDigit c ∨ c = '+' ∨ c = '-') then scanScores s s 0 none 1 1 else .ok (1, 1, s)

/-- `add_scored_music_string` (music.cpp:567-604). -/
def addScoredC (m : Music) (s : Str) : Out Music :=
  scoresC s >>= fun x =>
  if x.2.2.length > 2 ∧ x.2.2.head? = some '<' ∧ x.2.2.getLast? = some '>' then
    m.addNamedC ((x.2.2.drop 1).take (x.2.2.length - 2)) x.1 x.2.1
  else MusicDetails.newC x.2.2 x.1 x.2.1 >>= fun d => m.pushBackC d

end Music
end Ringing
