import Verif.Model.RowCalc
/-!
Model of the parser of row expressions (apps/utils/row_calc.cpp).  Its tokens are given; `make_row` (row_calc.cpp:702-721)
is the parameter `mk`, with none where `row::invalid` is thrown.  A part of the tokens is a list, and a place in it found by a search the
lists before and after it.  An integer is the text of its token (not modelled: `lexical_cast`, and so an
integer too large).  Where two parts are arguments of one constructor the left one is parsed first.
-/
namespace Ringing
namespace RowCalc

/-- Kinds of brackets (row_calc.cpp:69-81). -/
inductive Br | paren | brace | angle
  deriving DecidableEq, Repr

/-- Tokens (row_calc.cpp:67-88). -/
inductive Tok where
  | num (s : List Char)
  | lit (s : List Char)
  | opn (k : Br)
  | cls (k : Br)
  | op (o : Op)
  | power
  | minus
  | plus
  | comma
  | exec (s : List Char)
  | read (s : List Char)
  deriving DecidableEq, Repr

mutual
/-- The tree of nodes (row_calc.cpp:208-525). -/
inductive T where
  | row (r : Row)
  | int (neg : Bool) (s : List Char)
  | exec (s : List Char)
  | read (s : List Char)
  | set (es : Ts)
  | group (es : Ts)
  | mult (o : Op) (a b : T)
  | exp (a b : T)
  | diff (a b : T)
/-- `list<row_calc::expr>`. -/
inductive Ts where
  | nil
  | cons (e : T) (es : Ts)
end

/-- What a token adds to `depth`: for brackets of any kind (row_calc.cpp:597-604) or of one (row_calc.cpp:661-662). -/
def wt : Option Br → Tok → Int
  | none, .opn _ => 1
  | none, .cls _ => -1
  | some k, .opn j => if j = k then 1 else 0
  | some k, .cls j => if j = k then -1 else 0
  | _, _ => 0

/-- `find_first` (row_calc.cpp:589-617). -/
def findC (p : Tok → Bool) : Int → List Tok → Out (Option (List Tok × Tok × List Tok))
  | d, [] => if d = 0 then .ok none else .throw .runtimeError
  | d, t :: ts =>
    if wt none t = 0 ∧ d = 0 ∧ p t = true then .ok (some ([], t, ts))
    else findC p (d + wt none t) ts >>= fun r => .ok (r.map fun x => (t :: x.1, x.2))

/-- `find_last` (row_calc.cpp:619-647), which goes backwards. -/
def findLastC (p : Tok → Bool) (ts : List Tok) : Out (Option (List Tok × Tok × List Tok)) :=
  findC p 0 ts.reverse >>= fun r => .ok (r.map fun x => (x.2.2.reverse, x.2.1, x.1.reverse))

/-- The loop of `find_close_paren` (row_calc.cpp:658-670): what follows the bracket found. -/
def scanC (k : Br) : Int → List Tok → Option (List Tok)
  | _, [] => none
  | d, t :: ts => if d + wt (some k) t = 0 then some ts else scanC k (d + wt (some k) t) ts

/-- `is_enclosed` (row_calc.cpp:649-688). -/
def enclosedC (k : Br) : List Tok → Out Bool
  | [] => .ok false
  | t :: ts =>
    if t = .opn k then
      match scanC k 1 ts with
      | none => .throw .runtimeError
      | some r => if r.length + 1 = ts.length then .throw .runtimeError else .ok r.isEmpty
    else .ok false

/-- `check_binary_expr` (row_calc.cpp:574-587). -/
def checkC (a b : List Tok) : Out Unit := if a = [] ∨ b = [] then .throw .runtimeError else .ok ()

/-- `parse_int` (row_calc.cpp:690-700). -/
def parseInt (neg : Bool) : List Tok → Out T
  | [.num s] => .ok (.int neg s)
  | _ => .throw .runtimeError

def isOp : Tok → Bool
  | .op _ => true
  | _ => false

/-- The end of `parse_expr` (row_calc.cpp:832-847). -/
def leafC (mk : List Char → Option Row) : List Tok → Out T
  | [.num s] | [.lit s] => match mk s with
    | some r => .ok (.row r)
    | none => .throw .invalidArgument
  | [.exec s] => .ok (.exec s)
  | [.read s] => .ok (.read s)
  | _ => .throw .runtimeError

mutual
/-- `parse_expr` (row_calc.cpp:778-848). -/
def parseE (mk : List Char → Option Row) : (fuel : Nat) → List Tok → Out T
  | 0, _ => .timeout
  | fuel + 1, ts =>
    if ts = [] then .throw .runtimeError
    else enclosedC .paren ts >>= fun b => if b then parseE mk fuel ts.tail.dropLast
    else enclosedC .brace ts >>= fun b => if b then parseSet mk fuel ts.tail.dropLast >>= fun es => .ok (.set es)
    else enclosedC .angle ts >>= fun b => if b then parseSet mk fuel ts.tail.dropLast >>= fun es => .ok (.group es)
    else findLastC (fun t => t == .minus) ts >>= fun
      | some x => checkC x.1 x.2.2 >>= fun _ => parseE mk fuel x.1 >>= fun a => parseE mk fuel x.2.2 >>= fun b => .ok (.diff a b)
      | none => findLastC isOp ts >>= fun
        | some x => checkC x.1 x.2.2 >>= fun _ => parseE mk fuel x.1 >>= fun a => parseE mk fuel x.2.2 >>= fun b =>
          match x.2.1 with
          | .op o => .ok (.mult o a b)
          | _ => .throw .runtimeError
        | none => findC (fun t => t == .power) 0 ts >>= fun
          | some x => checkC x.1 x.2.2 >>= fun _ => parseE mk fuel x.1 >>= fun a => parseRI mk fuel x.2.2 >>= fun b => .ok (.exp a b)
          | none => leafC mk ts
/-- `parse_set` (row_calc.cpp:762-776). -/
def parseSet (mk : List Char → Option Row) : (fuel : Nat) → List Tok → Out Ts
  | 0, _ => .timeout
  | fuel + 1, ts => findC (fun t => t == .comma) 0 ts >>= fun
    | some x => checkC x.1 x.2.2 >>= fun _ => parseSet mk fuel x.2.2 >>= fun es => parseE mk fuel x.1 >>= fun e => .ok (.cons e es)
    | none => parseE mk fuel ts >>= fun e => .ok (.cons e .nil)
/-- `parse_row_or_int` (row_calc.cpp:723-760). -/
def parseRI (mk : List Char → Option Row) : (fuel : Nat) → List Tok → Out T
  | 0, _ => .timeout
  | fuel + 1, ts => match ts with
    | [] => .throw .runtimeError
    | .minus :: ts => parseInt true ts
    | .plus :: ts => parseInt false ts
    | [.num s] => if s.length = 1 then parseInt false [.num s] else match mk s with
      | some r => .ok (.row r)
      | none => parseInt false [.num s]
    | ts => parseE mk fuel ts
end

/-- `lexical_cast<int>` of the digits of a token (row_calc.cpp:697). -/
def natOf (s : List Char) : Nat := s.foldl (fun a c => 10 * a + (c.toNat - 48)) 0

mutual
/-- The expression a tree stands for, where `run` gives the rows in the output of a command or in a file.  What a
node with an integer does in `exp_node` is decided when it is evaluated (row_calc.cpp:300-305); an integer is
nowhere else. -/
def toE (run : List Char → List Row) : T → E
  | .row r => .row r
  | .int _ _ => .row []
  | .exec s | .read s => .exec (run s)
  | .set es => .set (toEs run es)
  | .group es => .group (toEs run es)
  | .mult o a b => .mult o (toE run a) (toE run b)
  | .exp a (.int _ s) => .pow (toE run a) (natOf s)
  | .exp a b => .conj (toE run a) (toE run b)
  | .diff a b => .diff (toE run a) (toE run b)
/-- See `toE`. -/
def toEs (run : List Char → List Row) : Ts → Es
  | .nil => .nil
  | .cons e es => .cons (toE run e) (toEs run es)
end

/-- `row_calc(str)` and its iterator, from the tokens on (row_calc.cpp:850-889). -/
def evalC (mk : List Char → Option Row) (run : List Char → List Row) (fuel : Nat) (ts : List Tok) : Out (List Row) :=
  parseE mk fuel ts >>= fun e => rowsC fuel (mach fuel (toE run e))

end RowCalc
end Ringing
