import Verif.Spec.SirilRun
import Verif.Spec.SirilTouch
/-
What a user finds defined when gsiril starts, and what a program of definitions and a proof is.  Of the model only the expressions, the statements
and their states are used.
-/
namespace Ringing.Siril.Running
open Ringing.Siril.Grammar

/-- The functions there are from the beginning. -/
def builtins : List (Str × Expr) :=
  [("at".toList, .fn .at_), ("pos".toList, .fn .pos), ("rowno".toList, .fn .rowno), ("swap".toList, .fn .swap), ("load".toList, .fn (.load .full)),
   ("loadm".toList, .fn (.load .leadOnly)), ("loadlh".toList, .fn (.load .leadHead)), ("stagename".toList, .fn .stagename), ("music".toList, .fn .music),
   ("runs".toList, .fn (.runs .anywhere)), ("frontruns".toList, .fn (.runs .front)), ("backruns".toList, .fn (.runs .back)),
   ("crus".toList, .fn (.runs .anywhere)), ("methname".toList, .fn .methname), ("pnstr".toList, .fn .pnstr)]

/-- A text in double quotes. -/
def quote (t : String) : Expr := .str t.toList { interpolate := true }

/-- What is printed first about a touch. -/
def summary : Expr := .sym "__summary__".toList

/-- The definitions of the script that is read at the beginning. -/
def script : List (Str × Expr) :=
  [("__summary__".toList, quote "# rows ending in @"),
   ("__music__".toList, .list (.assign "__score__".toList (.call "music".toList []))
      (.ifMatch (.cmp (.sym "__score__".toList) (.int 0) .gt) (quote "Music score: ${__score__}") none)),
   ("true".toList, .list summary (.list (quote "Touch is true") (.sym "__music__".toList))),
   ("notround".toList, .list summary (quote "Is this OK?")),
   ("false".toList, .list summary (quote "Touch is false in $ rows")),
   ("tooshort".toList, .list summary (.list (quote "Touch is too short: \\") (quote "at least ${min_length} rows expected"))),
   ("toolong".toList, quote "Touch exceeds maximum length of ${max_length} rows$$"),
   ("conflict".toList, .list summary (quote "Touch not completed due to false row$$")),
   ("rounds".toList, .nop), ("start".toList, .nop), ("finish".toList, .nop), ("abort".toList, .nop), ("everyrow".toList, .nop)]

/-- What is defined at the beginning; in MicroSiril mode `__msiril__` is true, and with `--no-init-file` the script is not read. -/
def standard (msiril noScript : Bool) : List (Str × Expr) :=
  builtins ++ ("__msiril__".toList, .bool msiril) :: if noScript then [] else script

/-- The names with a meaning of their own. -/
def StandardName (x : Str) : Prop :=
  x = first ∨ x = "__line__".toList ∨ x = "loop_counter".toList ∨ ∃ e, (x, e) ∈ standard false false

/-- The last definition of a symbol. -/
def definitionIn (ds : List (Str × Expr)) (x : Str) : Option Expr := (ds.reverse.find? fun d => decide (d.1 = x)).map Prod.snd

/-- The first statements of `ts`, read for `bells` bells, are these definitions, and `rest` follows. -/
inductive Definitions (A : RArgs) (bells : Int) : (ts : List Tok) → (ds : List (Str × Expr)) → (rest : List Tok) → Prop
  | nil {ts} : Definitions A bells ts [] ts
  | cons {ts x e ts1 ds rest} : Begins A bells ts (.define x e) ts1 → Definitions A bells ts1 ds rest → Definitions A bells ts ((x, e) :: ds) rest

/-- A program that says how many bells there are, defines symbols of its own and proves something. -/
structure Composition (A : RArgs) (ts : List Tok) (n : Nat) (ds : List (Str × Expr)) (x : Expr) : Prop where
  bells : 2 ≤ n ∧ n ≤ 33
  names : ∀ d ∈ ds, ¬ StandardName d.1
  reads : ∃ t1 t2 t3, Begins A 0 ts (.bells n) t1 ∧ Definitions A n t1 ds t2 ∧ Begins A n t2 (.prove x) t3 ∧ Over A n t3

end Ringing.Siril.Running
