import Verif.Model.SirilParser
import Verif.Model.PlaceNotation
import Verif.Model.Library
/-
Model of the literals of gsiril: the constructors of `pn_node`, `transp_node` and `pattern_node` (apps/gsiril/expression.cpp) and the
functions they call.

Simplifications:
* the character at the end iterator of a `string`, which `read_bell_expr` and `parse_bell_expr` look at, is `'\0'`;
* signed overflow in `parse_bell_expr` counts as wrapping around;
* the number of bells is not negative when a transposition or a pattern is read (`row(bells)` with a negative number), and the texts contain no
  `'\0'`.
-/
namespace Ringing.Siril

/-- `parse_int` (expression.cpp:217-225). -/
def parseBellInt (s : Str) : Out Int :=
  match Lib.lexicalCastInt s with
  | .throw _ => .throw .runtimeError
  | r => r

/-- `parse_bell_expr` (expression.cpp:227-245). -/
def parseBellExpr (bells : Int) (s : Str) : Out Int :=
  match s.dropWhile Bell.isSpace with
  | [] => parseBellInt []
  | c :: t =>
    if c = 'N' then
      match t.dropWhile Bell.isSpace with
      | [] => .ok bells
      | d :: u => if d ≠ '-' then .throw .runtimeError else parseBellInt (u.dropWhile Bell.isSpace) >>= fun k => .ok (i32 (bells - k))
    else parseBellInt (c :: t)

/-- The bells printed for a range (expression.cpp:255-260): those between `a` and `b`. -/
def between (a b : Nat) : Str :=
  if a < b then (List.range' (a + 1) (b - a - 1)).flatMap Bell.write
  else (List.range' (b + 1) (a - b - 1)).reverse.flatMap Bell.write

/-- The loop of `expand_bell_ranges` (expression.cpp:252-264); `p` is the character before. -/
def rangeLoop : (p : Option Char) → Str → Out Str
  | _, [] => .ok []
  | p, c :: cs =>
    let copy := rangeLoop (some c) cs >>= fun u => .ok (c :: u)
    match p, cs with
    | some x, d :: y :: rest =>
      if c = '.' ∧ d = '.' then
        Bell.readChar x >>= fun a => Bell.readChar y >>= fun b => rangeLoop (some d) (y :: rest) >>= fun u => .ok (between a b ++ u)
      else copy
    | _, _ => copy

/-- `expand_bell_ranges` (expression.cpp:247-266). -/
def expandRanges (pn : Str) : Out Str := if pn.length < 4 then .ok pn else rangeLoop none pn

/-- `bell( k - 1 )`. -/
def exprBell (k : Int) : Nat := ((k - 1) % 256).toNat

/-- The loop of `expand_bell_exprs` (expression.cpp:269-277); `n` bounds its passes. -/
def exprLoop (bells : Int) : (n : Nat) → Str → Out Str
  | _, [] => .ok []
  | 0, _ :: _ => .timeout
  | n + 1, c :: cs =>
    if c = '{' then
      PN.readBellExpr (.ok '\x00') (c :: cs) >>= fun (t, rest) => parseBellExpr bells t.tail.dropLast >>= fun k =>
      exprLoop bells n rest >>= fun u => .ok (Bell.write (exprBell k) ++ u)
    else exprLoop bells n cs >>= fun u => .ok (c :: u)

/-- `expand_bell_exprs` (expression.cpp:268-279). -/
def expandExprs (bells : Int) (pn : Str) : Out Str := exprLoop bells pn.length pn >>= expandRanges

/-- The constructor of `pn_node` from a text (expression.cpp:281-289). -/
def pnLit (bells : Int) (s : Str) : Out Expr :=
  if bells ≤ 0 then .throw .runtimeError
  else expandExprs bells s >>= fun pn => PN.ofCStr bells.toNat pn >>= fun cs => .ok (.pn cs [])

/-- The constructor of `transp_node` (expression.cpp:395-405). -/
def transpLit (bells : Int) (s : Str) : Out Expr :=
  if bells ≤ 0 then .throw .runtimeError
  else Row.ofStringC s >>= fun r => Row.mulC (Row.roundsC bells.toNat) r >>= fun t =>
    if (t.length : Int) ≠ bells then .throw .runtimeError else .ok (.transp t)

/-- The loop of `validate_regex` (expression.cpp:561-579); `br` is `inbrack`. -/
def regexLoop : Str → (br : Bool) → Out Unit
  | [], _ => .ok ()
  | c :: cs, br =>
    if c = '[' then (if br then .throw .runtimeError else regexLoop cs true)
    else if c = ']' then (if ¬ br then .throw .runtimeError else regexLoop cs false)
    else if c = '*' ∨ c = '?' then (if br then .throw .runtimeError else regexLoop cs br)
    else regexLoop cs br

/-- `validate_regex` (expression.cpp:550-582). -/
def validateRegex (d : MusicDetails) (bells : Nat) : Out Unit :=
  let allowed := Row.print (Row.roundsC bells) ++ "*?[]".toList
  if d.pat.pat.any fun c => !allowed.contains c then .throw .runtimeError else regexLoop d.pat.pat false

/-- The constructor of `pattern_node` (expression.cpp:615-619): its `music_details`. -/
def maskLit (bells : Int) (s : Str) : Out MusicDetails :=
  expandExprs bells s >>= fun t => MusicDetails.newC t 1 1 >>= fun d => validateRegex d bells.toNat >>= fun _ => .ok d

/-- How the literals are read when there are `bells` bells. -/
def literals (bells : Int) : Readers where
  pn := pnLit bells
  transp := transpLit bells
  regex := fun s => maskLit bells s >>= fun d => .ok (.pattern bells.toNat d)

end Ringing.Siril
