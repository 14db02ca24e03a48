import Verif.Model.Siril
import Verif.Model.NamedMusic
/-
Model of the parser of gsiril: `msparser` in apps/gsiril/parser.cpp, from tokens to expressions.

Simplifications:
* a range of iterators is the list of the tokens in it (so `is_enclosed` does not compute iterators beyond the
  end of its range, as the code does at parser.cpp:590, where `first` is `last` already);
* every exception thrown by the parser is a `runtime_error`, its message is left out;
* where C++ leaves open which of two operands is parsed first, the first one is;
* how place notation, transpositions and patterns in quotes are read is given by `Readers`.
-/
namespace Ringing.Siril

/-- The token types with a fixed text (`tok_types::enum_t`, parser.cpp:56-101). -/
inductive Sym
  | openParen | closeParen | openBrace | closeBrace | openBrack | closeBrack
  | colon | comma | plus | minus | times | divide | modulo | append | assignment | newLine | semicolon
  | reverse | greater | less | logicNot | merge | ctrlZ | comment
  | defAssign | immAssign | appendAssign | logicAnd | logicOr | equals | notEquals | greaterEq | lessEq
  | increment | decrement | leftShift | rightShift
  | other
  deriving DecidableEq, Repr

/-- The literals in quotes and the place notation (parser.cpp:84-86, 100). -/
inductive LitKind
  | string | transp | pn | regex
  deriving DecidableEq, Repr

/-- `token` (tokeniser.h:42-58).  The text of a token with a fixed text is left out. -/
inductive Tok
  | name (s : Str)
  | num (s : Str)
  | lit (k : LitKind) (s : Str)
  | sym (y : Sym)
  deriving DecidableEq, Repr

/-- What the constructors of `pn_node`, `transp_node` and `pattern_node` (expression.cpp:281-289, 395-405, 615-619) make
of the text of a literal. -/
structure Readers where
  pn : Str → Out Expr
  transp : Str → Out Expr
  regex : Str → Out Expr

/-- `string_to_int` (stringutils.cpp:72-85).  The `long` is converted to `int`. -/
def stringToInt (num : Str) : Out Int :=
  let r := Music.strtol (Lib.cStr num)
  if (num.drop ((Lib.cStr num).length - r.2.length)).all Bell.isSpace then .ok (i32 r.1) else .throw .runtimeError

/-- The tokens that increment `depth` in `find_one_of` (parser.cpp:605-608). -/
def Tok.opens : Tok → Bool
  | .sym .openBrace | .sym .openParen | .sym .openBrack => true
  | _ => false

/-- The tokens that decrement `depth` in `find_one_of` (parser.cpp:609-612). -/
def Tok.closes : Tok → Bool
  | .sym .closeBrace | .sym .closeParen | .sym .closeBrack => true
  | _ => false

/-- The loop of `find_one_of` (parser.cpp:596-626) with `find_first`: the tokens before the one found, it, and
those after it.  `pre` holds the tokens passed. -/
def findFirst (p : Tok → Bool) : List Tok → Int → List Tok → Out (Option (List Tok × Tok × List Tok))
  | _, depth, [] => if depth ≠ 0 then .throw .runtimeError else .ok none
  | pre, depth, t :: ts =>
    if t.opens then findFirst p (pre ++ [t]) (depth + 1) ts
    else if t.closes then findFirst p (pre ++ [t]) (depth - 1) ts
    else if depth = 0 ∧ p t then .ok (some (pre, t, ts))
    else findFirst p (pre ++ [t]) depth ts

/-- The same loop with `find_last`; `found` is the last one found so far. -/
def findLast (p : Tok → Bool) : Option (List Tok × Tok × List Tok) → List Tok → Int → List Tok →
    Out (Option (List Tok × Tok × List Tok))
  | found, _, depth, [] => if depth ≠ 0 then .throw .runtimeError else .ok found
  | found, pre, depth, t :: ts =>
    if t.opens then findLast p found (pre ++ [t]) (depth + 1) ts
    else if t.closes then findLast p found (pre ++ [t]) (depth - 1) ts
    else if depth = 0 ∧ p t then findLast p (some (pre, t, ts)) (pre ++ [t]) depth ts
    else findLast p found (pre ++ [t]) depth ts

/-- `find` (parser.cpp:290-297). -/
def find1 (y : Sym) (ts : List Tok) : Out (Option (List Tok × Tok × List Tok)) :=
  findFirst (fun t => t == .sym y) [] 0 ts

/-- The loop of `is_enclosed` (parser.cpp:577-591) and what follows it: whether the bracket opened first is closed
only at the end. -/
def enclosedLoop (o c : Sym) : Int → List Tok → Out Bool
  | depth, [] => if depth ≠ 0 then .throw .runtimeError else .ok true
  | depth, t :: ts =>
    let depth := if t = .sym o then depth + 1 else if t = .sym c then depth - 1 else depth
    if depth = 0 ∧ ts ≠ [] then .ok false else enclosedLoop o c depth ts

/-- `is_enclosed` (parser.cpp:569-594).  After the loop `first` is `last`, so that its test for empty
brackets never holds. -/
def isEnclosed (o c : Sym) (ts : List Tok) : Out Bool :=
  if ts.head? ≠ some (.sym o) ∨ ts.getLast? ≠ some (.sym c) then .ok false else enclosedLoop o c 0 ts

/-- The nodes made of the operators with two operands: parser.cpp:768-879. -/
def binNode : Sym → Expr → Expr → Option Expr
  | .comma, a, b => some (.list a b)
  | .logicOr, a, b => some (.or a b)
  | .logicAnd, a, b => some (.and a b)
  | .equals, a, b => some (.cmp a b .eq)
  | .notEquals, a, b => some (.cmp a b .ne)
  | .greater, a, b => some (.cmp a b .gt)
  | .less, a, b => some (.cmp a b .lt)
  | .greaterEq, a, b => some (.cmp a b .ge)
  | .lessEq, a, b => some (.cmp a b .le)
  | .merge, a, b => some (.merge a b)
  | .leftShift, a, b => some (.repl a b false)
  | .rightShift, a, b => some (.repl a b true)
  | .plus, a, b => some (.add a b 1)
  | .minus, a, b => some (.add a b (-1))
  | .times, a, b => some (.mult a b)
  | .append, a, b => some (.append a b)
  | .divide, a, b => some (.div a b)
  | .modulo, a, b => some (.mod a b)
  | _, _, _ => none

/-- Whether a token is one of these symbols: the comparison in `find_one_of` (parser.cpp:613-616). -/
def Tok.isOne (ys : List Sym) : Tok → Bool
  | .sym y => ys.contains y
  | _ => false

/-- One level of the operators with two operands (parser.cpp:768-774, and the same for the levels after it up to
parser.cpp:879): if one of `ys` is found, `check_bin_op` (parser.cpp:628-642) and the node, otherwise `rest`. -/
def binLevel (mk : List Tok → Out Expr) (ts : List Tok) (ys : List Sym) (rest : Out Expr) : Out Expr :=
  findFirst (Tok.isOne ys) [] 0 ts >>= fun
    | some (l, .sym y, r) =>
      if l = [] ∨ r = [] then .throw .runtimeError
      else mk l >>= fun a => mk r >>= fun b =>
        match binNode y a b with
        | some e => .ok e
        | none => .ub
    | some _ => .ub
    | none => rest

/-- `parse_list` (parser.cpp:518-533); `k` bounds the passes of the loop. -/
def parseList (mk : List Tok → Out Expr) : Nat → List Tok → Out (List Expr)
  | 0, _ => .timeout
  | k + 1, ts =>
    find1 .comma ts >>= fun
      | some (l, _, r) => mk l >>= fun e => parseList mk k r >>= fun es => .ok (e :: es)
      | none => if ts ≠ [] then mk ts >>= fun e => .ok [e] else .ok []

/-- The loop of `make_args` (parser.cpp:1001-1009). -/
def argsLoop (mk : List Tok → Out Expr) : Nat → List Tok → Out (List Expr)
  | 0, _ => .timeout
  | k + 1, ts =>
    find1 .comma ts >>= fun
      | some (l, _, r) =>
        if l = [] then .throw .runtimeError
        else mk l >>= fun e => argsLoop mk k r >>= fun es => .ok (e :: es)
      | none => if ts = [] then .throw .runtimeError else mk ts >>= fun e => .ok [e]

/-- `make_args` (parser.cpp:994-1012). -/
def makeArgs (mk : List Tok → Out Expr) (ts : List Tok) : Out (List Expr) :=
  if ts ≠ [] then argsLoop mk (ts.length + 1) ts else .ok []

/-- `while ( last != first && (last-1)->type() == tok_types::semicolon ) --last;` (parser.cpp:680-681, 708-709), where
`first` is the opening brace, which is not in the list. -/
def dropSemis (ts : List Tok) : List Tok := (ts.reverse.dropWhile (fun t => t == .sym .semicolon)).reverse

/-- The body of the loop over the alternatives in braces (parser.cpp:686-705): the test and the expression of
the alternative `ts`. -/
def alternative (L : Readers) (mk : List Tok → Out Expr) (ts : List Tok) : Out (Expr × Expr) :=
  find1 .colon ts >>= fun
    | some (l, _, r) => mk l >>= fun test => (if r ≠ [] then mk r else .ok .nop) >>= fun e => .ok (test, e)
    | none => L.regex ['*'] >>= fun test => (if ts ≠ [] then mk ts else .ok .nop) >>= fun e => .ok (test, e)

/-- The loop over the alternatives in braces (parser.cpp:683-710), from the last one to the first.  `ts` are the tokens between
the opening brace and `last`; the loop ends when `last` is the opening brace, which it becomes only by way of `last = i`. -/
def bracesLoop (L : Readers) (mk : List Tok → Out Expr) : Nat → Option Expr → List Tok → Out (Option Expr)
  | 0, _, _ => .timeout
  | k + 1, chain, ts =>
    findLast (fun t => t == .sym .semicolon) none [] 0 ts >>= fun
      | some (l, _, r) =>
        alternative L mk r >>= fun a => bracesLoop L mk k (some (.ifMatch a.1 a.2 chain)) (dropSemis l)
      | none => alternative L mk ts >>= fun a => .ok (some (.ifMatch a.1 a.2 chain))

/-- The node for a name (parser.cpp:957-974). -/
def nameNode (s : Str) : Expr :=
  if s = "break".toList then .exc .brk
  else if s = "rounds".toList then .isrounds
  else if s = "true".toList then .bool true
  else if s = "false".toList then .bool false
  else if s = "bells".toList then .bells
  else if s = "length".toList then .length
  else if s = "endproof".toList then .endproof
  else if s = "proving".toList then .isproving
  else .sym s

/-- What is left when there is a single token (parser.cpp:948-991). -/
def literal (L : Readers) : Tok → Out Expr
  | .lit .string s => .ok (.str s { interpolate := true })
  | .name s => .ok (nameNode s)
  | .lit .pn s => L.pn s
  | .lit .transp s => L.transp s
  | .lit .regex s => L.regex s
  | .num s => stringToInt s >>= fun v => .ok (.int v)
  | .sym _ => .throw .runtimeError

/-- The variable named after `defined` (parser.cpp:881-888). -/
def definedArg (t : Tok) (ts : List Tok) : Option Str :=
  if t = .name "defined".toList then
    match ts with
    | [.name x] => some x
    | [.sym .openParen, .name x, .sym .closeParen] => some x
    | _ => none
  else none

/-- The part of `make_expr` after the operators with two operands (parser.cpp:881-992), on `t :: ts`. -/
def makeUnary (L : Readers) (mk : List Tok → Out Expr) (t : Tok) (ts : List Tok) : Out Expr :=
  match definedArg t ts with
  | some x => .ok (.defined x)
  | none =>
  match t, ts with
  -- parser.cpp:890-909
  | .num s, u :: us => stringToInt s >>= fun v => mk (u :: us) >>= fun e => .ok (.rep v e)
  -- parser.cpp:913-919
  | .sym .increment, u :: _ => match u with | .name x => .ok (.incr x 1) | _ => .throw .runtimeError
  | .sym .increment, [] => .throw .runtimeError
  | .sym .decrement, u :: _ => match u with | .name x => .ok (.incr x (-1)) | _ => .throw .runtimeError
  | .sym .decrement, [] => .throw .runtimeError
  -- parser.cpp:932-940
  | .sym .reverse, u :: us => mk (u :: us) >>= fun e => .ok (.rev e)
  | .sym .reverse, [] => .throw .runtimeError
  | .sym .logicNot, u :: us => mk (u :: us) >>= fun e => .ok (.not e)
  | .sym .logicNot, [] => .throw .runtimeError
  | .name s, ts =>
    -- parser.cpp:890-909
    if s = "repeat".toList then
      if ts = [] then .throw .runtimeError else mk ts >>= fun e => .ok (.rep (-1) e)
    -- parser.cpp:921-925
    else if s = "echo".toList then
      match ts with
      | .lit .string x :: _ => .ok (.str x { interpolate := true, toParent := true })
      | _ => .throw .runtimeError
    -- parser.cpp:927-930
    else if s = "save".toList then
      match ts with
      | .name x :: _ => .ok (.save x)
      | _ => .throw .runtimeError
    -- parser.cpp:942-950
    else if ts.length ≥ 2 then
      isEnclosed .openParen .closeParen ts >>= fun b =>
        if b then makeArgs mk (ts.tail.dropLast) >>= fun as => .ok (.call s as)
        else .throw .runtimeError
    else if ts ≠ [] then .throw .runtimeError
    else literal L t
  | t, ts => if ts ≠ [] then .throw .runtimeError else literal L t

/-- The assignment operators (parser.cpp:734-766): the node, or `rest`. -/
def assignLevel (mk : List Tok → Out Expr) (ts : List Tok) (rest : Out Expr) : Out Expr :=
  findFirst (Tok.isOne [.assignment, .appendAssign, .immAssign]) [] 0 ts >>= fun
    | some ([.name x], .sym .assignment, r) =>
      if r = [] then .ok (.assign x .nop) else mk r >>= fun e => .ok (.assign x e)
    | some ([.name x], .sym .appendAssign, r) =>
      if r = [] then .throw .runtimeError else mk r >>= fun e => .ok (.appendAssign x e)
    | some ([.name x], .sym .immAssign, r) =>
      if r = [] then .throw .runtimeError else mk r >>= fun e => .ok (.immAssign x e)
    | some _ => .throw .runtimeError
    | none => rest

/-- The operators with two operands, from the one that binds least (parser.cpp:768-879). -/
def levels : List (List Sym) :=
  [[.comma], [.logicOr], [.logicAnd], [.equals, .notEquals, .greater, .less, .greaterEq, .lessEq], [.merge],
   [.leftShift, .rightShift], [.plus, .minus], [.times, .append, .divide, .modulo]]

/-- `make_expr` (parser.cpp:660-992); the first argument bounds the nesting of the calls. -/
def makeExpr (L : Readers) : Nat → List Tok → Out Expr
  | 0, _ => .timeout
  | _ + 1, [] => .throw .runtimeError
  | n + 1, t :: ts =>
    -- parser.cpp:669-672
    isEnclosed .openParen .closeParen (t :: ts) >>= fun b =>
    if b then makeExpr L n ts.dropLast else
    -- parser.cpp:675-714
    isEnclosed .openBrace .closeBrace (t :: ts) >>= fun b =>
    if b then
      bracesLoop L (makeExpr L n) (ts.length + 1) none (dropSemis ts.dropLast) >>= fun
        | some e => .ok e
        | none => .throw .runtimeError
    else
    -- parser.cpp:716-719
    isEnclosed .openBrack .closeBrack (t :: ts) >>= fun b =>
    if b then parseList (makeExpr L n) (ts.length + 1) ts.dropLast >>= fun es => .ok (.array es)
    else
    assignLevel (makeExpr L n) (t :: ts) <|
    levels.foldr (binLevel (makeExpr L n) (t :: ts)) (makeUnary L (makeExpr L n) t ts)

/-- `make_expr` on a range. -/
def makeExprC (L : Readers) (ts : List Tok) : Out Expr := makeExpr L (ts.length + 1) ts

end Ringing.Siril
