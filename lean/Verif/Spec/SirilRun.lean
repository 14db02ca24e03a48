import Verif.Model.SirilRun
import Verif.Spec.SirilStatements
import Verif.Spec.Row
/-
What the statements of gsiril do and what running a program is, in the vocabulary of a user: symbols, settings, what is printed.  Of the model
the states (`World`, `Ex`) are used, and `execS` where the running of a program is described as the running of its statements.
-/
namespace Ringing.Siril.Running
open Ringing.Siril.Grammar

/-- The symbol that stands for the first definition. -/
abbrev first : Str := "__first__".toList

/-- Nothing but the symbols differs. -/
def OnlySymbols (w w' : World) : Prop := ∃ t, w' = { w with e := { w.e with syms := t } }

/-- Nothing but the symbols, the number of nodes executed and what has been printed differs. -/
def OnlyContext (w w' : World) : Prop := ∃ e, w' = { w with e := e }

/-- The symbols `t'` are `t` with `x` defined as `e`, where `fresh` says whether this may count as the first definition. -/
structure Defined (t t' : Table) (x : Str) (e : Expr) (fresh : Prop) : Prop where
  here : t' x = some e
  /-- The first definition is remembered. -/
  marks : x ≠ first → fresh → t first = none → t' first = some e
  keeps : x ≠ first → ¬ (fresh ∧ t first = none) → t' first = t first
  others : ∀ y, y ≠ x → y ≠ first → t' y = t y

/-- A symbol that has no definition or an empty one. -/
def Vacant (t : Table) (x : Str) : Prop := t x = none ∨ t x = some .nop

/-- The row mask `*`, which shows whole rows. -/
def WholeRow (d : MusicDetails) : Prop := d.pat.pat = ['*']

/-- The row mask there is at the beginning. -/
def DefaultMask (d : MusicDetails) : Prop := MusicDetails.newC ['*'] 1 1 = .ok d

/-- A state in which expressions can be evaluated and rows are shown whole: there is no limit for the nodes, the starting row is a row on the number
of bells, and the row mask is that of the beginning. -/
structure Ordered (w : World) : Prop where
  limit : w.v.nodeLimit = 0
  row : Spec.IsRow w.v.rounds
  bells : (w.v.rounds.length : Int) = w.v.bells
  mask : DefaultMask w.rmask

/-- A text with the row for `@` and 0 for `#`. -/
def filledIn (bellText : Nat → Str) (row : Row) (t : Str) : Str :=
  t.flatMap fun c => if c = '@' then row.flatMap bellText else if c = '#' then ['0'] else [c]

/-- The conditions are all false, tried in this order from `w`, which becomes `w'`. -/
inductive AllFalse (A : RArgs) : List (Expr × List Stmt) → World → World → Prop
  | nil {w} : AllFalse A [] w w
  | cons {c b alts w w1 w'} : boolConst A c w = .ok false w1 → AllFalse A alts w1 w' → AllFalse A ((c, b) :: alts) w w'

/-- How the parser is told to read, when there are `bells` bells. -/
def readingOf (A : RArgs) (bells : Int) : PArgs := { msiril := A.T.msiril, noImport := A.noImport, lits := A.lits bells }

/-- The first commands of `ts` say the statement `s`, and `rest` follows. -/
def Begins (A : RArgs) (bells : Int) (ts : List Tok) (s : Stmt) (rest : List Tok) : Prop :=
  ∃ cmds, Splits A.T.msiril ts cmds rest ∧ Says (readingOf A bells) (.statement s) cmds

/-- Nothing is left to be read, or what follows tells to stop (`end`, `quit`, `exit`). -/
def Over (A : RArgs) (bells : Int) (ts : List Tok) : Prop :=
  (∀ t ∈ ts, Separator t ∨ Space t) ∨ ∃ rest, Begins A bells ts .eof rest

/-- `k` statements are read from `ts` and executed one after the other, each read for the number of bells set by those before it; this makes
`w'` of `w`, and `rest` is still to be read. -/
inductive Steps (A : RArgs) (imp : Str → World → Ex Unit) : (k : Nat) → (ts : List Tok) → World → (rest : List Tok) → World → Prop
  | nil {ts w} : Steps A imp 0 ts w ts w
  | cons {k ts w s ts1 w1 rest w'} : Begins A w.v.bells ts s ts1 → s ≠ .eof → execS A imp s w = .ok () w1 →
      Steps A imp k ts1 w1 rest w' → Steps A imp (k + 1) ts w rest w'

/-- The next statement fails: the stream does not begin with a statement, or executing it throws.  `w'` is what the program is left with. -/
inductive Fails (A : RArgs) (imp : Str → World → Ex Unit) : (ts : List Tok) → World → (rest : List Tok) → World → Prop
  | read {ts w} : ¬ Over A w.v.bells ts → (¬ ∃ s rest, Begins A w.v.bells ts s rest) →
      Fails A imp ts w (readStmt A w.v.bells ⟨ts, false⟩).2.toks w
  | exec {ts w s rest w'} : Begins A w.v.bells ts s rest → s ≠ .eof → execS A imp s w = .err w' → Fails A imp ts w rest w'

/-- Statements are read from `ts` and executed one after the other, and those that fail are left out: `k` statements are executed, `j` fail. -/
inductive Survives (A : RArgs) (imp : Str → World → Ex Unit) : (k j : Nat) → (ts : List Tok) → World → (rest : List Tok) → World → Prop
  | nil {ts w} : Survives A imp 0 0 ts w ts w
  | step {k j ts w s ts1 w1 rest w'} : Begins A w.v.bells ts s ts1 → s ≠ .eof → execS A imp s w = .ok () w1 →
      Survives A imp k j ts1 w1 rest w' → Survives A imp (k + 1) j ts w rest w'
  | fail {k j ts w ts1 w1 rest w'} : Fails A imp ts w ts1 w1 → Survives A imp k j ts1 { w1 with reports := w1.reports + 1 } rest w' →
      Survives A imp k (j + 1) ts w rest w'

end Ringing.Siril.Running
