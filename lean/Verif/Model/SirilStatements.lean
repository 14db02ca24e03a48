import Verif.Model.SirilParser
/-
Model of the statements of gsiril: how `msparser` in apps/gsiril/parser.cpp splits a stream of tokens into commands and reads
statements from them.

Simplifications:
* the tokens still to be read from the stream are a list; after an exception it is the list of those not read yet;
* every exception thrown by the parser is a `runtime_error`, its message is left out; what `version` prints is left out;
* the text of a token with a fixed text is left out, it is compared with words only (`end`, `quit`, `exit`).
-/
namespace Ringing.Siril

/-- `echo_stmt::mode_t` (statement.h:167). -/
inductive EchoMode
  | echo | warn | error
  deriving DecidableEq, Repr

/-- The statements (statement.h:36-221).  `eof` is `statement( NULL )`. -/
inductive Stmt
  | eof
  | null
  | bells (n : Int)
  | extents (n : Int)
  | rows (lo hi : Nat)
  | rounds (r : Row)
  | rowMask (s : Str)
  | import (s : Str)
  | prove (e : Expr)
  | echo (m : EchoMode) (e : Expr)
  | music (es : List Expr)
  | ifs (alts : List (Expr × List Stmt))
  | foreach (x : Str) (a : Expr) (body : List Stmt)
  | define (x : Str) (e : Expr)
  | dflt (x : Str) (e : Expr)
  | immediate (x : Str) (e : Expr)

/-- What the parser is told: `msiril_syntax` and `disable_import` of the arguments, and how literals are read. -/
structure PArgs where
  msiril : Bool := false
  noImport : Bool := false
  lits : Readers

/-- A token that ends a command (parser.cpp:326-328). -/
def Tok.isSep : Tok → Bool
  | .sym .newLine | .sym .semicolon => true
  | _ => false

/-- A token left out of commands (parser.cpp:332-333). -/
def Tok.isSpace : Tok → Bool
  | .sym .newLine | .sym .comment => true
  | _ => false

/-- `is_bin_only_operator` (parser.cpp:306-308). -/
def Tok.binOnly : Tok → Bool
  | .sym .comma | .sym .append => true
  | _ => false

/-- `mstokeniser::validate` (parser.cpp:197-234): whether it returns. -/
def Tok.isValid (msiril : Bool) : Tok → Bool
  | .name _ | .num _ | .lit .string _ | .lit .transp _ | .lit .pn _ => true
  | .lit .regex _ => !msiril
  | .sym y =>
    match y with
    | .openParen | .closeParen | .comma | .times | .assignment | .newLine | .semicolon | .comment | .defAssign | .immAssign
    | .appendAssign | .reverse | .openBrace | .closeBrace | .colon | .logicNot | .less | .greater | .lessEq | .greaterEq => true
    | .ctrlZ => msiril
    | .plus | .minus | .modulo | .append | .divide | .merge | .leftShift | .rightShift | .logicAnd | .logicOr | .equals | .notEquals
    | .increment | .decrement | .openBrack | .closeBrack => !msiril
    | .other => false

/-- The inner loop of `tokenise_command` (parser.cpp:326-351): the tokens of the command with those in `toks` before them, the nesting, and the
tokens left. -/
def gather (msiril : Bool) (toks : List Tok) (nesting : Nat) : List Tok → Out (List Tok × Nat) × List Tok
  | [] => (.ok (toks, nesting), [])
  | t :: ts =>
    if t.isSep ∧ nesting = 0 then (.ok (toks, nesting), t :: ts)
    else if ¬ t.isSpace ∧ ¬ t.isValid msiril then (.throw .runtimeError, ts)
    else
      gather msiril (if t.isSpace then toks else toks ++ [t])
        (if t.opens then nesting + 1 else if t.closes then nesting - 1 else nesting) ts

/-- The outer loop of `tokenise_command` (parser.cpp:316-353); `n` bounds its passes. -/
def gatherAll (msiril : Bool) : (n : Nat) → (toks : List Tok) → (nesting : Nat) → List Tok → Out (List Tok × Nat) × List Tok
  | 0, _, _, ts => (.timeout, ts)
  | n + 1, toks, nesting, ts =>
    match gather msiril toks nesting (ts.dropWhile fun t => t.isSep || t.isSpace) with
    | (.ok (toks, nesting), rest) =>
      if toks ≠ [] ∧ (toks.getLast?.any Tok.binOnly ∨ nesting ≠ 0) ∧ rest ≠ [] then gatherAll msiril n toks nesting rest
      else (.ok (toks, nesting), rest)
    | (r, rest) => (r, rest)

/-- `tokenise_command` (parser.cpp:310-360). -/
def nextCommand (msiril : Bool) (ts : List Tok) : Out (List Tok) × List Tok :=
  match gatherAll msiril (ts.length + 1) [] 0 ts with
  | (.ok (toks, nesting), rest) =>
    if toks ≠ [] ∧ (toks.getLast? = some (.sym .comma) ∨ nesting ≠ 0) then (.throw .runtimeError, rest) else (.ok toks, rest)
  | (.throw x, rest) => (.throw x, rest)
  | (.ub, rest) => (.ub, rest)
  | (.timeout, rest) => (.timeout, rest)

/-- `token::operator==` with a word that is not the text of a token with a fixed text. -/
def Tok.text : Tok → Str
  | .name s | .num s | .lit _ s => s
  | .sym _ => []

/-- An `int` converted to `size_t`. -/
def toSize (v : Int) : Nat := (v % 2 ^ 64).toNat

/-- The mode of `echo_stmt` for a keyword (statement.cpp:252-256), if `parse_command` calls it (parser.cpp:437-439). -/
def echoMode (s : Str) : Option EchoMode :=
  if s = "echo".toList then some .echo else if s = "warn".toList then some .warn else if s = "error".toList then some .error else none

/-- What a command begins: a statement of its own, a block of an `if`, or the block of a `foreach`. -/
inductive Opened
  | stmt (s : Stmt)
  | ifBlock (c : Expr)
  | forBlock (x : Str) (a : Expr)

/-- The test of `parse_foreach` and what it reads of the command (parser.cpp:537-548). -/
def foreachHead (L : Readers) (cmd : List Tok) : Out Opened :=
  match cmd.reverse with
  | .name x :: .name w :: front =>
    if cmd.length < 3 ∨ w ≠ "as".toList then .throw .runtimeError
    else makeExprC L front.reverse.tail >>= fun a => .ok (.forBlock x a)
  | _ => .throw .runtimeError

/-- The end of `parse_command`: definitions (parser.cpp:458-477). -/
def definition (L : Readers) : List Tok → Out Opened
  | .name x :: .sym y :: r =>
    if y = .assignment ∨ y = .defAssign ∨ y = .immAssign then
      (if r = [] then .ok .nop else makeExprC L r) >>= fun e =>
        .ok (.stmt (if y = .assignment then .define x e else if y = .defAssign then .dflt x e else .immediate x e))
    else .throw .runtimeError
  | _ => .throw .runtimeError

/-- `parse_command` from the commands that begin with a certain name on (parser.cpp:425-478). -/
def keywordCommand (L : Readers) (cmd : List Tok) : Out Opened :=
  match cmd with
  | .name s :: r =>
    if s = "prove".toList ∧ r ≠ [] ∧ r.head? ≠ some (.sym .assignment) ∧ r.head? ≠ some (.sym .immAssign) ∧ r.head? ≠ some (.sym .defAssign) then
      makeExprC L r >>= fun e => .ok (.stmt (.prove e))
    else
    match echoMode s with
    | some m => (if r = [] then .ok (.str [] {}) else makeExprC L r) >>= fun e => .ok (.stmt (.echo m e))
    | none =>
    if s = "music".toList then parseList (makeExprC L) (r.length + 1) r >>= fun es => .ok (.stmt (.music es))
    else if s = "if".toList ∧ r ≠ [] then makeExprC L r >>= fun e => .ok (.ifBlock e)
    else if s = "foreach".toList then foreachHead L cmd
    else definition L cmd
  | _ => .throw .runtimeError

/-- `parse_command` (parser.cpp:366-478) up to the blocks of `if` and `foreach`.  The range of rows is read from the word `to`, as in
the code (parser.cpp:402). -/
def command (A : PArgs) (cmd : List Tok) : Out Opened :=
  match cmd with
  | [] => .ok (.stmt .eof)
  | [t] =>
    if t.text = "end".toList ∨ t.text = "quit".toList ∨ t.text = "exit".toList ∨ t = .sym .ctrlZ then .ok (.stmt .eof)
    else if t = .name "version".toList then .ok (.stmt .null)
    else keywordCommand A.lits cmd
  | [.num s, .name w] =>
    if w = "bells".toList then stringToInt s >>= fun v => .ok (.stmt (.bells v))
    else if w = "extents".toList then stringToInt s >>= fun v => .ok (.stmt (.extents v))
    else if w = "rows".toList then stringToInt s >>= fun v => .ok (.stmt (.rows (toSize v) (toSize v)))
    else keywordCommand A.lits cmd
  | [.num s, .name w, .num _, .name w'] =>
    if w = "to".toList ∧ w' = "rows".toList then
      stringToInt s >>= fun v => stringToInt w >>= fun v' => .ok (.stmt (.rows (toSize v) (toSize v')))
    else keywordCommand A.lits cmd
  | [.name w, .lit k s] =>
    if w = "rounds".toList ∧ k = .transp then Row.ofStringC s >>= fun r => .ok (.stmt (.rounds r))
    else if w = "row_mask".toList ∧ k = .regex then .ok (.stmt (.rowMask s))
    else if A.noImport = false ∧ w = "import".toList ∧ k = .string then .ok (.stmt (.import s))
    else keywordCommand A.lits cmd
  | [.name w, .name s] =>
    if A.noImport = false ∧ w = "import".toList then .ok (.stmt (.import s)) else keywordCommand A.lits cmd
  | _ => keywordCommand A.lits cmd

mutual

/-- `parse_command` with the blocks (parser.cpp:366-478). -/
def parseCommand (A : PArgs) : (n : Nat) → (cmd : List Tok) → (ts : List Tok) → Out Stmt × List Tok
  | 0, _, ts => (.timeout, ts)
  | n + 1, cmd, ts =>
    match command A cmd with
    | .ok (.stmt s) => (.ok s, ts)
    | .ok (.ifBlock c) => parseIf A n [] c [] false ts
    | .ok (.forBlock x a) => parseFor A n x a [] ts
    | .throw e => (.throw e, ts)
    | .ub => (.ub, ts)
    | .timeout => (.timeout, ts)

/-- The loop of `parse_if` (parser.cpp:486-516); `alts`, `cond`, `block` and `hadElse` are its variables. -/
def parseIf (A : PArgs) : (n : Nat) → (alts : List (Expr × List Stmt)) → (cond : Expr) → (block : List Stmt) → (hadElse : Bool) →
    (ts : List Tok) → Out Stmt × List Tok
  | 0, _, _, _, _, ts => (.timeout, ts)
  | n + 1, alts, cond, block, hadElse, ts =>
    match nextCommand A.msiril ts with
    | (.ok cmd, ts) =>
      if cmd = [] then (.throw .runtimeError, ts)
      else if cmd = [.name "endif".toList] then (.ok (.ifs (alts ++ [(cond, block)])), ts)
      else if 1 < cmd.length ∧ cmd.head? = some (.name "elseif".toList) then
        if hadElse then (.throw .runtimeError, ts)
        else
          match makeExprC A.lits cmd.tail with
          | .ok c => parseIf A n (alts ++ [(cond, block)]) c [] hadElse ts
          | .throw e => (.throw e, ts)
          | .ub => (.ub, ts)
          | .timeout => (.timeout, ts)
      else if cmd = [.name "else".toList] then
        if hadElse then (.throw .runtimeError, ts) else parseIf A n (alts ++ [(cond, block)]) (.bool true) [] true ts
      else
        match parseCommand A n cmd ts with
        | (.ok s, ts) => parseIf A n alts cond (block ++ [s]) hadElse ts
        | r => r
    | (.throw e, ts) => (.throw e, ts)
    | (.ub, ts) => (.ub, ts)
    | (.timeout, ts) => (.timeout, ts)

/-- The loop of `parse_foreach` (parser.cpp:550-565). -/
def parseFor (A : PArgs) : (n : Nat) → (x : Str) → (a : Expr) → (block : List Stmt) → (ts : List Tok) → Out Stmt × List Tok
  | 0, _, _, _, ts => (.timeout, ts)
  | n + 1, x, a, block, ts =>
    match nextCommand A.msiril ts with
    | (.ok cmd, ts) =>
      if cmd = [] then (.throw .runtimeError, ts)
      else if cmd = [.name "endfor".toList] then (.ok (.foreach x a block), ts)
      else
        match parseCommand A n cmd ts with
        | (.ok s, ts) => parseFor A n x a (block ++ [s]) ts
        | r => r
    | (.throw e, ts) => (.throw e, ts)
    | (.ub, ts) => (.ub, ts)
    | (.timeout, ts) => (.timeout, ts)

end

/-- `parse` (parser.cpp:362-364). -/
def parseC (A : PArgs) (ts : List Tok) : Out Stmt × List Tok :=
  match nextCommand A.msiril ts with
  | (.ok cmd, rest) => parseCommand A (2 * ts.length + 2) cmd rest
  | (.throw e, rest) => (.throw e, rest)
  | (.ub, rest) => (.ub, rest)
  | (.timeout, rest) => (.timeout, rest)

end Ringing.Siril
