import Verif.Model.Bell
import Verif.Model.MathUtils
/-
Model of `row_wildcard` (ringing/row_wildcard.h, ringing/row_wildcard.cpp).  Strings are lists of
characters; an `unsigned` is a number reduced modulo 2^32 where the code can leave that range.  The text of
an exception is not modelled.
-/
namespace Ringing

/-- `row_wildcard` (row_wildcard.h:93-94). -/
structure Wildcard where
  pat : List Char
  b : Nat
  deriving DecidableEq, Repr

namespace Wildcard

/-- The loop of `check_expression` (row_wildcard.cpp:240-274); `br` is `sqbrackets`. -/
def checkLoop : List Char → (br : Bool) → Out Unit
  | [], br => if br then .throw .invalidArgument else .ok ()
  | c :: cs, br =>
    if Bell.isSymbol c then checkLoop cs br
    else if c = '?' ∨ c = '*' then (if br then .throw .invalidArgument else checkLoop cs br)
    else if c = '[' then (if br then .throw .invalidArgument else checkLoop cs true)
    else if c = ']' then (if br then checkLoop cs false else .throw .invalidArgument)
    else .throw .invalidArgument

/-- `check_expression` (row_wildcard.cpp:236-278). -/
def checkExpression (pat : List Char) : Out Unit := checkLoop pat false

/-- The loop of `set_bells` (row_wildcard.cpp:60-64). -/
def bellsLoop (b : Nat) : List Char → Out Unit
  | [] => .ok ()
  | c :: cs =>
    if Bell.isSymbol c then
      Bell.readChar c >>= fun x => if x ≥ b then .throw .invalidArgument else bellsLoop b cs
    else bellsLoop b cs

/-- `set_bells` (row_wildcard.cpp:56-67), when it does not throw. -/
def setBellsC (w : Wildcard) (b : Nat) : Out Wildcard :=
  if b = 0 then .ok { w with b := b } else bellsLoop b w.pat >>= fun _ => .ok { w with b := b }

/-- `row_wildcard( pattern, bells )` (row_wildcard.cpp:37-40) and `set` (row_wildcard.cpp:42-54). -/
def newC (pat : List Char) (bells : Nat) : Out Wildcard :=
  checkExpression pat >>= fun _ => setBellsC ⟨pat, bells⟩ bells

/-- The loop of `count_bells` (row_wildcard.cpp:77-96). -/
def countLoop : List Char → (br : Bool) → Nat → Nat
  | [], _, total => total
  | c :: cs, br, total =>
    if c = '?' then countLoop cs br (total + 1)
    else if c = '[' then countLoop cs true total
    else if c = ']' then countLoop cs false (total + 1)
    else if br = false ∧ Bell.isSymbol c then countLoop cs br (total + 1)
    else countLoop cs br total

/-- `count_bells` (row_wildcard.cpp:72-98). -/
def countBells (s : List Char) : Nat := countLoop s false 0

/-- `expand_star` (row_wildcard.cpp:100-106). -/
def expandStar (src : List Char) (pos count : Nat) : List Char :=
  src.take pos ++ List.replicate count '?' ++ src.drop (pos + 1)

/-- `unsigned p = s.find( c, pos )`: `npos` becomes 2^32 - 1. -/
def find (s : List Char) (c : Char) (pos : Nat) : Nat :=
  match (s.drop pos).findIdx? (· == c) with
  | some i => pos + i
  | none => 4294967295

/-- `s[i]`: the terminating NUL may be read. -/
def at_ (s : List Char) (i : Nat) : Out Char :=
  if i = s.length then .ok '\x00' else vget s i

/-- `copy_choices` (row_wildcard.cpp:110-122): the appended text and the new position.  The test for `npos`
is never true, as an `unsigned` is compared with a `size_t`. -/
def copyChoices (dest src : List Char) (pos : Nat) : List Char × Nat :=
  let e := find src ']' pos
  (dest ++ (src.drop pos).take (e - pos + 1), e)

/-- `copy_if_choices_contains` (row_wildcard.cpp:124-140). -/
def copyIfContains (dest src : List Char) (pos : Nat) (sym : Char) : Option (List Char × Nat) :=
  let e := find src ']' pos
  if find src sym pos > e then none else some (dest ++ [sym], e)

/-- The loop of `copy_choices_intersection` (row_wildcard.cpp:151-155): `dest`, `ai`, `bi`, `had_one`. -/
def interLoop (a b : List Char) (bInit : Nat) : (fuel : Nat) → List Char → Nat → Nat → Bool →
    Out (List Char × Nat × Nat × Bool)
  | 0, _, _, _, _ => .timeout
  | f + 1, dest, ai, bi, had =>
    at_ a ai >>= fun c =>
    if c = ']' then .ok (dest, ai, bi, had)
    else match copyIfContains dest b bInit c with
      | some (d, e) => interLoop a b bInit f d (ai + 1) e true
      | none => interLoop a b bInit f dest (ai + 1) bInit had

/-- `copy_choices_intersection` (row_wildcard.cpp:142-160). -/
def copyInter (dest a : List Char) (ai : Nat) (b : List Char) (bi : Nat) : Out (List Char × Nat × Nat × Bool) :=
  interLoop a b bi (a.length + 2) (dest ++ ['[']) (ai + 1) bi false >>= fun r =>
  .ok (r.1 ++ [']'], r.2.1, r.2.2.1, r.2.2.2)

/-- The loop of `make_intersection` (row_wildcard.cpp:175-228); `none` is the result `false`. -/
def makeLoop (a b : List Char) (an bn : Nat) : (fuel : Nat) → List Char → Nat → Nat → Out (Option (List Char))
  | 0, _, _, _ => .timeout
  | f + 1, dest, ai, bi =>
    if ai = an ∧ bi = bn then .ok (some dest)
    else
      at_ a ai >>= fun x => at_ b bi >>= fun y =>
      let aw := decide (x = '*' ∨ x = '?')
      let bw := decide (y = '*' ∨ y = '?')
      let ab := Bell.isSymbol x
      let bb := Bell.isSymbol y
      let as := decide (x = '[')
      let bs := decide (y = '[')
      let next (d : List Char) (ai bi : Nat) : Out (Option (List Char)) :=
        makeLoop a b an bn f d (if ai < an then ai + 1 else ai) (if bi < bn then bi + 1 else bi)
      if aw && bw then next (dest ++ ['?']) ai bi
      else if aw && bb then next (dest ++ [y]) ai bi
      else if bw && ab then next (dest ++ [x]) ai bi
      else if ab && ab then (if x = y then next (dest ++ [x]) ai bi else .ok none)
      else if aw && bs then next (copyChoices dest b bi).1 ai (copyChoices dest b bi).2
      else if bw && as then next (copyChoices dest a ai).1 (copyChoices dest a ai).2 bi
      else if ab && bs then
        match copyIfContains dest b bi x with
        | some (d, e) => next d ai e
        | none => .ok none
      else if bb && as then
        match copyIfContains dest a ai y with
        | some (d, e) => next d e bi
        | none => .ok none
      else if as && bs then
        copyInter dest a ai b bi >>= fun r => if r.2.2.2 then next r.1 r.2.1 r.2.2.1 else .ok none
      else .throw .invalidArgument

/-- `make_intersection` (row_wildcard.cpp:167-232).  Each step moves on in one of the strings. -/
def makeIntersection (a b : List Char) : Out (Option (List Char)) :=
  let an := find a '*' 0
  let bn := find b '*' 0
  makeLoop a b an bn (a.length + b.length + 1) [] 0 0 >>= fun r => .ok (r.map (· ++ a.drop an))

/-- `need_intersection` (row_wildcard.cpp:411-424): whether the fragment, up to the next star, has no bell
outside brackets. -/
def needInter : List Char → (br : Bool) → Bool
  | [], _ => true
  | c :: cs, br =>
    if c = '[' then needInter cs true
    else if c = ']' then needInter cs false
    else if br = false ∧ Bell.isSymbol c then false
    else needInter cs br

/-- `possible_matches` (row_wildcard.cpp:309-456).  `q` is passed by reference in the code, but every caller
that goes on after the call restores or ignores it, so here it is passed by value.  The numbers of question
marks are not reduced to `int`. -/
def possibleC (bells : Nat) : (fuel : Nat) → (pos : Nat) → (s : List Char) → (q : Nat) → Out Nat
  | 0, _, _, _ => .timeout
  | f + 1, pos, s, q =>
    match s[pos]? with
    | none => if countBells s < bells then possibleC bells f pos (s ++ ['*']) q else .ok 1
    | some c =>
      if Bell.isSymbol c then possibleC bells f (pos + 1) s q
      else if c = '?' then possibleC bells f (pos + 1) s (q + 1) >>= fun x => .ok (u64 (x * (q + 1)))
      else if c = '[' then
        forUp (pos + 1) (find s ']' (pos + 1)) 0 fun total i =>
          at_ s i >>= fun x =>
          if (s.take pos).contains x = false ∧ find s x pos = i then
            possibleC bells f pos (s.take pos ++ [x] ++ s.drop (find s ']' (pos + 1) + 1)) q >>= fun k => .ok (u64 (total + k))
          else .ok total
      else if c = '*' then
        if s[pos + 1]? = some '*' then possibleC bells f pos (s.take pos ++ s.drop (pos + 1)) q
        else
          let n := u32 (bells + 4294967296 - countBells s)
          if (s.drop (pos + 1)).contains '*' = false then possibleC bells f pos (expandStar s pos n) q
          else
            let need := needInter ((s.drop (pos + 1)).takeWhile (· ≠ '*')) false
            forUp 0 (n + 1) 0 fun total i =>
              possibleC bells f pos (expandStar s pos i) q >>= fun k =>
              if need then
                forUp 0 i (u64 (total + k)) fun total j =>
                  makeIntersection (expandStar s pos i) (expandStar s pos j) >>= fun r =>
                  match r with
                  | some t => possibleC bells f pos t q >>= fun k => .ok (u64 (total + 18446744073709551616 - k))
                  | none => .ok total
              else .ok (u64 (total + k))
      else .throw .invalidArgument

/-- `count` (row_wildcard.cpp:280-290). -/
def countC (w : Wildcard) (bells fuel : Nat) : Out Nat :=
  let bells := if bells = 0 then w.b else bells
  if bells = 0 then .throw .invalidArgument else possibleC bells fuel 0 w.pat 0

end Wildcard
end Ringing
