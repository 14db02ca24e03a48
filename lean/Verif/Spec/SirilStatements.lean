import Verif.Model.SirilStatements
import Verif.Spec.SirilGrammar
/-
How a stream of tokens is split into commands, and which commands make a statement.  The types of the model are used (tokens, expressions,
statements) and none of its functions, but for the constructor of a row from a string, `Row.ofStringC`.
-/
namespace Ringing.Siril.Grammar

/-! ### Commands -/

/-- Ends a command, if it stands outside brackets. -/
def Separator (t : Tok) : Prop := t = .sym .newLine ∨ t = .sym .semicolon
/-- No part of commands. -/
def Space (t : Tok) : Prop := t = .sym .newLine ∨ t = .sym .comment

/-- Not allowed in MicroSiril. -/
def Modern (t : Tok) : Prop :=
  (∃ s, t = .lit .regex s) ∨ ∃ y ∈ [Sym.plus, .minus, .modulo, .append, .divide, .merge, .leftShift, .rightShift, .logicAnd, .logicOr,
    .equals, .notEquals, .increment, .decrement, .openBrack, .closeBrack], t = .sym y

/-- Allowed in commands. -/
def Allowed (msiril : Bool) (t : Tok) : Prop :=
  t ≠ .sym .other ∧ (t = .sym .ctrlZ → msiril = true) ∧ (Modern t → msiril = false)

open Classical in
/-- The number of brackets open at the end, if `n` were open at the beginning; a closing bracket when none is open counts for nothing. -/
noncomputable def opened (n : Nat) : List Tok → Nat
  | [] => n
  | t :: ts => opened (if Opening t then n + 1 else if Closing t then n - 1 else n) ts

/-- No separator outside brackets. -/
def OneLine (ts : List Tok) : Prop := ∀ l t r, ts = l ++ t :: r → Separator t → opened 0 l ≠ 0

open Classical in
/-- The tokens that are part of the command. -/
noncomputable def kept (ts : List Tok) : List Tok := ts.filter fun t => decide (¬ Space t)

/-- A piece of a command, with the separators and comments before it and the stream `rest` behind it. -/
structure Piece (msiril : Bool) (blanks c rest : List Tok) : Prop where
  blanks : ∀ t ∈ blanks, Separator t ∨ Space t
  first : ∀ t, c.head? = some t → ¬ Separator t ∧ ¬ Space t
  line : OneLine c
  allowed : ∀ t ∈ c, ¬ Space t → Allowed msiril t
  closed : opened 0 c = 0
  /-- It ends where the stream ends or at a separator. -/
  last : ∀ t, rest.head? = some t → Separator t
  empty : c = [] → rest = []

/-- A command that goes on behind the separator. -/
def GoesOn (cmd : List Tok) : Prop := ∃ l, cmd = l ++ [.sym .comma] ∨ cmd = l ++ [.sym .append]

/-- The stream begins with what completes the command of which `sofar` has been read, and `rest` follows. -/
inductive Completes (msiril : Bool) : (sofar stream cmd rest : List Tok) → Prop
  | done {sofar blanks c rest} : Piece msiril blanks c rest → ¬ GoesOn (sofar ++ kept c) →
      Completes msiril sofar (blanks ++ c ++ rest) (sofar ++ kept c) rest
  | more {sofar blanks c rest cmd rest'} : Piece msiril blanks c rest → GoesOn (sofar ++ kept c) → rest ≠ [] →
      Completes msiril (sofar ++ kept c) rest cmd rest' → Completes msiril sofar (blanks ++ c ++ rest) cmd rest'
  /-- At the end of the stream a `.` is the end of a command. -/
  | append {sofar blanks c l} : Piece msiril blanks c [] → sofar ++ kept c = l ++ [.sym .append] →
      Completes msiril sofar (blanks ++ c ++ []) (sofar ++ kept c) []

/-- `cmd` is the first command of the stream, and `rest` follows.  There is an empty one at the end of the stream only. -/
def Next (msiril : Bool) (stream cmd rest : List Tok) : Prop := Completes msiril [] stream cmd rest

/-- The first commands of the stream. -/
inductive Splits (msiril : Bool) : (stream : List Tok) → (cmds : List (List Tok)) → (rest : List Tok) → Prop
  | nil {ts} : Splits msiril ts [] ts
  | cons {ts cmd ts' cmds rest} : Next msiril ts cmd ts' → Splits msiril ts' cmds rest → Splits msiril ts (cmd :: cmds) rest

/-! ### Statements of one command -/

/-- The text of a token that is no symbol. -/
def HasText (t : Tok) (s : Str) : Prop := t = .name s ∨ t = .num s ∨ ∃ k, t = .lit k s

/-- The words for the statements that print. -/
inductive EchoWord : Str → EchoMode → Prop
  | echo : EchoWord "echo".toList .echo
  | warn : EchoWord "warn".toList .warn
  | error : EchoWord "error".toList .error

/-- The assignments of statements, and what they make. -/
inductive Assigns : Sym → (Str → Expr → Stmt) → Prop
  | define : Assigns .assignment .define
  | dflt : Assigns .defAssign .dflt
  | immediate : Assigns .immAssign .immediate

/-- The names that cannot be defined by a statement. -/
def Reserved (x : Str) : Prop :=
  (∃ m, EchoWord x m) ∨ x = "music".toList ∨ x = "if".toList ∨ x = "foreach".toList

/-- The statements that are one command. -/
inductive Line (A : PArgs) : List Tok → Stmt → Prop
  | ends {t s} : s = "end".toList ∨ s = "quit".toList ∨ s = "exit".toList → HasText t s → Line A [t] .eof
  | ctrlZ : Line A [.sym .ctrlZ] .eof
  | version : Line A [.name "version".toList] .null
  | bells {s v} : Numeral s v → Line A [.num s, .name "bells".toList] (.bells v)
  | extents {s v} : Numeral s v → Line A [.num s, .name "extents".toList] (.extents v)
  | rows {s v} : Numeral s v → Line A [.num s, .name "rows".toList] (.rows v.toNat v.toNat)
  | rounds {s r} : Row.ofStringC s = .ok r → Line A [.name "rounds".toList, .lit .transp s] (.rounds r)
  | rowMask {s} : Line A [.name "row_mask".toList, .lit .regex s] (.rowMask s)
  | import {t s} : A.noImport = false → t = .name s ∨ t = .lit .string s → Line A [.name "import".toList, t] (.import s)
  | prove {e ts} : Spells A.lits 0 e ts → (∀ y f, Assigns y f → ts.head? ≠ some (.sym y)) → ts ≠ [] →
      Line A (.name "prove".toList :: ts) (.prove e)
  | echoNothing {w m} : EchoWord w m → Line A [.name w] (.echo m (.str [] {}))
  | echo {w m e ts} : EchoWord w m → Spells A.lits 0 e ts → Line A (.name w :: ts) (.echo m e)
  | music {items : List (Expr × List Tok)} {trail : Bool} :
      (∀ i ∈ items, Spells A.lits 0 i.1 i.2) → (∀ i ∈ items, NoneOutside (· = .sym .comma) i.2) →
      (trail = true → items ≠ []) →
      Line A (.name "music".toList :: (commas (items.map (·.2)) ++ (if trail then [.sym .comma] else []))) (.music (items.map (·.1)))
  | assignNothing {x y f} : Assigns y f → ¬ Reserved x → Line A [.name x, .sym y] (f x .nop)
  | assign {x y f e ts} : Assigns y f → ¬ Reserved x → Spells A.lits 0 e ts → Line A (.name x :: .sym y :: ts) (f x e)

/-! ### Statements with blocks -/

/-- The commands with a meaning of their own inside `if`. -/
def IfWord (cmd : List Tok) : Prop :=
  cmd = [.name "endif".toList] ∨ cmd = [.name "else".toList] ∨ ∃ t ts, cmd = .name "elseif".toList :: t :: ts

/-- What commands make: a statement, what follows `if` with its condition (with or without an `else` before it),
and the statements inside an `if` and a `foreach`. -/
inductive Form
  | statement (s : Stmt)
  | branches (cond : Expr) (hadElse : Bool) (alts : List (Expr × List Stmt))
  | ifBody (b : List Stmt)
  | forBody (b : List Stmt)

/-- The commands make the form. -/
inductive Says (A : PArgs) : Form → List (List Tok) → Prop
  | line {cmd s} : Line A cmd s → Says A (.statement s) [cmd]
  | ifs {c ts alts cmds} : Spells A.lits 0 c ts → Says A (.branches c false alts) cmds →
      Says A (.statement (.ifs alts)) ((.name "if".toList :: ts) :: cmds)
  | foreach {x a ts b cmds} : Spells A.lits 0 a ts → Says A (.forBody b) cmds →
      Says A (.statement (.foreach x a b))
        ((.name "foreach".toList :: (ts ++ [.name "as".toList, .name x])) :: (cmds ++ [[.name "endfor".toList]]))
  | endif {c h b cmds} : Says A (.ifBody b) cmds → Says A (.branches c h [(c, b)]) (cmds ++ [[.name "endif".toList]])
  | elseif {c b cmds c' ts alts cmds'} : Says A (.ifBody b) cmds → Spells A.lits 0 c' ts → Says A (.branches c' false alts) cmds' →
      Says A (.branches c false ((c, b) :: alts)) (cmds ++ (.name "elseif".toList :: ts) :: cmds')
  | else {c b cmds alts cmds'} : Says A (.ifBody b) cmds → Says A (.branches (.bool true) true alts) cmds' →
      Says A (.branches c false ((c, b) :: alts)) (cmds ++ [.name "else".toList] :: cmds')
  | ifNil : Says A (.ifBody []) []
  | ifCons {s cmd cmds b cmds'} : Says A (.statement s) (cmd :: cmds) → ¬ IfWord cmd → Says A (.ifBody b) cmds' →
      Says A (.ifBody (s :: b)) (cmd :: cmds ++ cmds')
  | forNil : Says A (.forBody []) []
  | forCons {s cmd cmds b cmds'} : Says A (.statement s) (cmd :: cmds) → Says A (.forBody b) cmds' →
      Says A (.forBody (s :: b)) (cmd :: cmds ++ cmds')

/-- The commands whose reading is described: the brackets in it match, or nothing after the first token lets tokens be ignored; and numbers
are small. -/
structure Tame (cmd : List Tok) : Prop where
  nested : Nested cmd ∨ ∀ t ∈ cmd.tail, ¬ Careless t
  small : SmallNumbers cmd

/-- Every command of the stream is one whose reading is described. -/
def AllTame (ms : Bool) (ts : List Tok) : Prop := ∀ cmds rest, Splits ms ts cmds rest → ∀ cmd ∈ cmds, Tame cmd

end Ringing.Siril.Grammar
