import Verif.Model.SirilRun
/-
Model of the beginning of gsiril: the constructor of `execution_context`, `register_functions`, `initialise` and `main` of apps/gsiril, without
`--filter`.

Simplifications: the command line has been read (the fields of `Env`, `RArgs` and `IArgs`); the script gsiril.init is here without its comments
and empty lines, as escape.awk makes it.
-/
namespace Ringing.Siril

/-- What the command line says about the beginning. -/
structure IArgs where
  noInit : Bool := false
  /-- `-S` -/
  stringDefs : List Str := []
  /-- `-D` -/
  definitions : List Str := []
  /-- `-m` -/
  modules : List Str := []
  rowMask : Str := []
  minLength : Nat := 0
  maxLength : Nat := 0
  interactive : Bool := false

/-- `execution_context` before its constructor. -/
def blankWorld (I : IArgs) (v : Env) : World :=
  { v := v, e := ⟨fun _ => none, 0, []⟩, rmask := ⟨⟨[], 0⟩, 0, 0, 1, 1, []⟩, interactive := I.interactive }

/-- The constructor of `execution_context` (execution_context.cpp:91-101). -/
def contextC (I : IArgs) (v : Env) : Ex Unit :=
  (Ex.lift (blankWorld I v) (MusicDetails.newC (if I.rowMask ≠ [] then I.rowMask else ['*']) 1 1)).bind fun d w =>
  (if w.v.bells ≠ 0 then
    defineLine { w with rmask := d, v := { w.v with rounds := if w.v.rounds.length = 0 then Row.roundsC w.v.bells.toNat else w.v.rounds } }
   else .ok () { w with rmask := d }).bind fun _ w =>
  .ok () (setLength I.minLength I.maxLength w)

/-- The functions of `register_functions` (functions.cpp:234-266). -/
def functions : List (Str × Fn) :=
  [("at".toList, .at_), ("pos".toList, .pos), ("rowno".toList, .rowno), ("swap".toList, .swap), ("load".toList, .load .full),
   ("loadm".toList, .load .leadOnly), ("loadlh".toList, .load .leadHead), ("stagename".toList, .stagename), ("music".toList, .music),
   ("runs".toList, .runs .anywhere), ("frontruns".toList, .runs .front), ("backruns".toList, .runs .back), ("crus".toList, .runs .anywhere),
   ("methname".toList, .methname), ("pnstr".toList, .pnstr)]

/-- `register_functions` (functions.cpp:234-266). -/
def registerFunctions (w : World) : World := functions.foldl (fun w f => w.defineSym f.1 (.fn f.2)) w

/-- The script gsiril.init (init/gsiril.init:21-44). -/
def initText : Str :=
  "__summary__  = \"# rows ending in @\"\n".toList ++
   "__music__    = (__score__=music()), \n".toList ++
   "               {__score__ > 0: \"Music score: ${__score__}\"}\n".toList ++
   "true         = __summary__, \"Touch is true\", __music__\n".toList ++
   "notround     = __summary__, \"Is this OK?\"\n".toList ++
   "false        = __summary__, \"Touch is false in $ rows\"\n".toList ++
   "tooshort     = __summary__, \"Touch is too short: \\\",\n".toList ++
   "                            \"at least ${min_length} rows expected\"\n".toList ++
   "toolong      = \"Touch exceeds maximum length of ${max_length} rows$$\"\n".toList ++
   "conflict     = __summary__, \"Touch not completed due to false row$$\"\n".toList ++
   "rounds   =\nstart    =\nfinish   =\nabort    =\neveryrow = \n".toList

/-- `run( ex, ..., parser::fatal )` on a text. -/
def runText (A : RArgs) (depth : Nat) (text : Str) (w : World) : Ex Unit :=
  (Ex.lift w (openSrc A text)).bind fun src w =>
  (runLoop A (importC A depth) .fatal (src.toks.length + 1) src 0 w).bind fun _ w => .ok () w

/-- One `-S` argument (main.cpp:103-112). -/
def stringDef (s : Str) (w : World) : Ex Unit :=
  if '=' ∉ s then .exit 2 w
  else .ok () (w.defineSym (s.takeWhile (· ≠ '=')) (.str (s.dropWhile (· ≠ '=')).tail {}))

/-- `is_definition` (statement.h:42,56,69). -/
def Stmt.isDefinition : Stmt → Bool
  | .define _ _ => true
  | .dflt _ _ => true
  | .immediate _ _ => true
  | _ => false

/-- One `-D` argument (main.cpp:119-131). -/
def defArg (A : RArgs) (depth : Nat) (s : Str) (w : World) : Ex Unit :=
  (Ex.lift w (openSrc A s)).bind fun src w =>
  (Ex.lift w (readStmt A w.v.bells src).1).bind fun st w =>
  if st.isDefinition then
    (execS A (importC A depth) st w).bind fun _ w' =>
    (Ex.lift w' (readStmt A w'.v.bells (readStmt A w.v.bells src).2).1).bind fun st w =>
    match st with
    | .eof => .ok () w
    | _ => .exit 3 w
  else .exit 3 w

/-- One `-m` argument (main.cpp:138-145). -/
def modArg (A : RArgs) (depth : Nat) (s : Str) (w : World) : Ex Unit :=
  match A.files s with
  | none => .err w
  | some text => runText A depth text w

/-- One after the other. -/
def eachArg (f : Str → World → Ex Unit) : List Str → World → Ex Unit
  | [], w => .ok () w
  | s :: ss, w => (f s w).bind fun _ w => eachArg f ss w

/-- `initialise` (main.cpp:74-158). -/
def initialise (A : RArgs) (I : IArgs) (depth : Nat) (w : World) : Ex Unit :=
  let i := w.interactive
  let w := (registerFunctions { w with interactive := false }).defineSym "__msiril__".toList (.bool A.T.msiril)
  (if I.noInit then .ok () w else runText A depth initText w).bind fun _ w =>
  (eachArg stringDef I.stringDefs w).bind fun _ w =>
  (eachArg (defArg A depth) I.definitions w).bind fun _ w =>
  (eachArg (modArg A depth) I.modules w).bind fun _ w =>
  let w := if w.v.everyrowOnly then w.defineSym "everyrow".toList (.str ['@'] { interpolate := true }) else w
  .ok () { w with interactive := i, e := { w.e with syms := w.e.syms.undefine firstName } }

/-- `main` (main.cpp:300-333) behind the reading of the arguments, without `--filter`. -/
def gsirilC (A : RArgs) (I : IArgs) (depth n : Nat) (v : Env) (text : Option Str) : Ex Nat :=
  match (contextC I v).bind fun _ w => initialise A I depth w with
  | .ok _ w => mainC A depth n text w
  | .err w => .ok 2 { w with reports := w.reports + 1 }
  | .escape w => .ok 2 { w with reports := w.reports + 1 }
  | .exit c w => .ok c w
  | .ub => .ub
  | .fuel => .fuel

end Ringing.Siril
