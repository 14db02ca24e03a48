import Verif.Model.SirilStatements
import Verif.Model.SirilTokens
/-
Model of running gsiril programs: `execute` of the statements (apps/gsiril/statement.cpp), the settings of execution_context.cpp they change, the
loop of `parser::run` (parser.cpp:1026-1050) and what main.cpp does with an input.

Simplifications:
* the messages of verbose mode and the texts of error messages are left out, error messages are counted;
* a file is its contents; `load_file` is a function;
* the literals are read for the number of bells at the time of parsing, as in the code, by functions that are parameters;
* the budget for evaluating expressions and the depth of imports are parameters; a run that needs more ends with `fuel`;
* an exception thrown by the destructor in `import_stmt::execute` counts as undefined behaviour (the program terminates).
-/
namespace Ringing.Siril

/-- The arguments that do not change. -/
structure RArgs where
  T : TArgs := {}
  noImport : Bool := false
  proveOne : Bool := false
  determineBells : Bool := false
  /-- `prove_symbol` (prog_args.h): empty, or `__first__` with `-P` and in MicroSiril mode (prog_args.cpp:72-77), or what `-P` says. -/
  proveSymbol : Str := []
  lits : Int → Readers
  /-- The constructor of `pattern_node` (expression.cpp:615-619). -/
  mask : Int → Str → Out MusicDetails
  files : Str → Option Str
  /-- The budget of the interpreter. -/
  budget : Nat

/-- `execution_context` with its arguments (execution_context.h:112-120).  The field `mask` of `v` is not used. -/
structure World where
  v : Env
  e : ECtx
  /-- `expected_length().first`; the second is `v.maxLength`. -/
  minLength : Nat := 0
  rmask : MusicDetails
  interactive : Bool := false
  failed : Bool := false
  done : Bool := false
  /-- What has been written to `cerr` by statements. -/
  cerr : Str := []
  /-- How many error messages there were. -/
  reports : Nat := 0

/-- How running ends: normally, with a C++ exception, with a `script_exception` (which is no `std::exception`), with `exit`, with undefined
behaviour, or not within the budget. -/
inductive Ex (α : Type) : Type
  | ok (a : α) (w : World)
  | err (w : World)
  | escape (w : World)
  | exit (code : Nat) (w : World)
  | ub
  | fuel

/-- One after the other. -/
def Ex.bind {α β : Type} (x : Ex α) (f : α → World → Ex β) : Ex β :=
  match x with
  | .ok a w => f a w
  | .err w => .err w
  | .escape w => .escape w
  | .exit c w => .exit c w
  | .ub => .ub
  | .fuel => .fuel

/-- A call of the library. -/
def Ex.lift {α : Type} (w : World) : Out α → Ex α
  | .ok a => .ok a w
  | .throw _ => .err w
  | .ub => .ub
  | .timeout => .fuel

/-- Some state, for `startC`. -/
def noState (e : ECtx) : St :=
  { e := e, dsyms := fun _ => none, r := [], lastRow := [], maxLength := 0, p := Prover.make 0 .null, proving := false, parent := none,
    mus := Music.new 0, live := false, silent := false, rung := [], ended := none }

/-- What the interpreter does with a `proof_context` made for it, and what remains of that. -/
def World.after {α : Type} (w : World) : Res α → Ex α
  | .ok a s => .ok a { w with e := s.e }
  | .brk s => .escape { w with e := s.e }
  | .abort s => .escape { w with e := s.e }
  | .err s => .err { w with e := s.e }
  | .ub => .ub
  | .fuel => .fuel

/-- The settings for a `proof_context`, whose constructor makes the row mask (proof_context.cpp:50). -/
def World.envC (w : World) : Ex Env :=
  (Ex.lift w (Music.newWithC w.v.bells.toNat w.rmask)).bind fun m w => .ok { w.v with mask := m } w

/-- `proof_context p(e);` and a call with it. -/
def inContext {α : Type} (A : RArgs) (w : World) (m : Calls → M α) : Ex α :=
  w.envC.bind fun v w => w.after (M.bind (startC v w.e) (fun _ => m (calls v A.budget)) (noState w.e))

/-- `set_silent`. -/
def setSilent (b : Bool) : M Unit := fun s => .ok () { s with silent := b }

/-- `execution_context::define_line` (execution_context.cpp:56-68).  As in the interpreter, `music` reads `junk` behind a row. -/
def defineLine (w : World) : Ex Unit :=
  (Ex.lift w (Music.newWithC w.v.bells.toNat w.rmask)).bind fun m w =>
  (Ex.lift w (m.processC (readBell w.v (Row.roundsC w.v.bells.toNat)) (Row.roundsC w.v.bells.toNat) false)).bind fun (m, hit) w =>
  let len : Out Nat := if hit then (match m.info with | [] => .ub | d :: _ => .ok d.wilds.length) else .ok w.v.bells.toNat
  (Ex.lift w len).bind fun len w =>
  .ok () { w with e := { w.e with syms := w.e.syms.define "__line__".toList (.str (List.replicate len '-') {}) } }

/-- `execution_context::bells( b )` (execution_context.cpp:35-49). -/
def setBells (b : Int) (w : World) : Ex Unit :=
  let warn := b < w.v.rounds.length ∧ ¬ Row.isrounds w.v.rounds
  let rounds : Out Row :=
    if b > w.v.rounds.length then Row.mulC w.v.rounds (Row.roundsC b.toNat)
    else if b < w.v.rounds.length then .ok (Row.roundsC b.toNat)
    else .ok w.v.rounds
  (Ex.lift w rounds).bind fun r w =>
  defineLine { w with
    v := { w.v with rounds := r, bells := b }
    e := { w.e with out := w.e.out ++ if warn then "Warning: Rounds reset".toList else [] } }

/-- A `size_t` converted to `RINGING_LLONG`. -/
def toLL (n : Nat) : Int := ((n : Int) + 2 ^ 63) % 2 ^ 64 - 2 ^ 63

/-- `execution_context::expected_length( l )` (execution_context.cpp:70-89). -/
def setLength (lo hi : Nat) (w : World) : World :=
  let t := w.e.syms
  let t := if lo ≠ 0 ∧ hi ≠ 0 then (t.define "min_length".toList (.int (toLL lo))).define "max_length".toList (.int (toLL hi))
    else (t.undefine "min_length".toList).undefine "max_length".toList
  { w with e := { w.e with syms := t }, v := { w.v with maxLength := hi }, minLength := lo }

/-- `execution_context::define_symbol` (execution_context.cpp:138-147). -/
def World.defineSym (w : World) (x : Str) (e : Expr) : World := { w with e := { w.e with syms := w.e.syms.defineFirst x e } }

/-- `isnop` of a symbol looked up (expr_base.h:133, expression.cpp:102-105). -/
def isNopSym : Option Expr → Bool
  | none => true
  | some .nop => true
  | _ => false

/-- `execution_context::default_define_symbol` (execution_context.cpp:125-136). -/
def World.defaultSym (w : World) (x : Str) (e : Expr) : World :=
  if isNopSym (w.e.syms x) then
    let t := w.e.syms.define x e
    { w with e := { w.e with syms := if (t firstName).isNone then t.define firstName e else t } }
  else w

/-- `prove_stmt::execute` (statement.cpp:86-145). -/
def execProve (A : RArgs) (x : Expr) (w : World) : Ex Unit :=
  if A.proveOne ∧ w.done then .err w
  else
    let w := { w with done := true }
    let w := { w with e := { w.e with out := w.e.out ++ if A.determineBells then decimalInt w.v.bells ++ " bells\n".toList else [] } }
    w.envC.bind fun v w =>
    (w.after (proveC v w.minLength A.budget x w.e (noState w.e))).bind fun r w => .ok () (if r.fails then { w with failed := true } else w)

/-- `echo_stmt::execute` (statement.cpp:258-276). -/
def execEcho (A : RArgs) (m : EchoMode) (x : Expr) (w : World) : Ex Unit :=
  (inContext A w fun c => (if w.v.quiet < 2 ∨ m ≠ .echo then setSilent false else M.pure ()) >>= fun _ => c.strNl x).bind fun (t, noNl) w =>
  let t := t ++ if noNl then [] else ['\n']
  let w := if m = .echo then { w with e := { w.e with out := w.e.out ++ t } } else { w with cerr := w.cerr ++ t }
  if m = .error then (if w.interactive then .ok () { w with failed := true } else .exit 1 w) else .ok () w

/-- The loop of `music_stmt::execute` (statement.cpp:280-283). -/
def addMusic (A : RArgs) : List Expr → World → Ex Unit
  | [], w => .ok () w
  | x :: xs, w =>
    (inContext A w fun c => c.mus x).bind fun m w =>
    (Ex.lift w (w.v.music.appendC m.info)).bind fun m w => addMusic A xs { w with v := { w.v with music := m } }

/-- The loop of `foreach_stmt::execute` (statement.cpp:307-313). -/
def forLoop (x : Str) (body : World → Ex Unit) : List Expr → World → Ex Unit
  | [], w => .ok () w
  | a :: as, w => (body (w.defineSym x a)).bind fun _ w => forLoop x body as w

/-- `execution_context::evaluate_bool_const` (execution_context.cpp:156-160). -/
def boolConst (A : RArgs) (c : Expr) (w : World) : Ex Bool :=
  inContext A w fun k => setSilent true >>= fun _ => k.bool c

mutual

/-- `execute` of the statements (statement.cpp:33-314), where `imp` imports. -/
def execS (A : RArgs) (imp : Str → World → Ex Unit) : Stmt → World → Ex Unit
  | .eof, _ => .ub
  | .null, w => .ok () w
  | .bells n, w => if n > 33 ∨ n ≤ 1 then .err w else setBells n w
  | .extents n, w => .ok () { w with v := { w.v with extents := n } }
  | .rows lo hi, w => .ok () (setLength lo hi w)
  | .rounds r, w => .ok () { w with v := { w.v with rounds := r } }
  | .rowMask s, w =>
    if w.v.bells = 0 then .err w
    else if w.v.everyrowOnly then .ok () w
    else (Ex.lift w (A.mask w.v.bells s)).bind fun d w => defineLine { w with rmask := d }
  | .import s, w => imp s w
  | .prove x, w => execProve A x w
  | .echo m x, w => execEcho A m x w
  | .music xs, w => addMusic A xs { w with v := { w.v with music := w.v.music.clear w.v.bells.toNat } }
  | .ifs alts, w => execIf A imp alts w
  | .foreach x a body, w => (inContext A w fun c => c.arr a).bind fun l w => forLoop x (execAll A imp body) l w
  | .define x e, w => .ok () (w.defineSym x e)
  | .dflt x e, w => .ok () (w.defaultSym x e)
  | .immediate x e, w => (inContext A w fun c => c.eval e).bind fun e w => .ok () (w.defineSym x e)

/-- `compound_stmt::execute` (statement.cpp:286-290). -/
def execAll (A : RArgs) (imp : Str → World → Ex Unit) : List Stmt → World → Ex Unit
  | [], w => .ok () w
  | s :: ss, w => (execS A imp s w).bind fun _ w => execAll A imp ss w

/-- `if_stmt::execute` (statement.cpp:296-303). -/
def execIf (A : RArgs) (imp : Str → World → Ex Unit) : List (Expr × List Stmt) → World → Ex Unit
  | [], w => .ok () w
  | (c, ss) :: alts, w => (boolConst A c w).bind fun b w => if b then execAll A imp ss w else execIf A imp alts w

end

/-- What is left of an input: the tokens, and whether reading another one throws.  The first token has been read. -/
structure Src where
  toks : List Tok
  bad : Bool

/-- `make_default_parser` on a text (parser.cpp:249-252): the first token is read. -/
def openSrc (A : RArgs) (text : Str) : Out Src :=
  match tokensC A.T text with
  | (ts, .ok ()) => .ok ⟨ts, false⟩
  | (ts, .throw e) => if ts = [] then .throw e else .ok ⟨ts, true⟩
  | (_, .ub) => .ub
  | (_, .timeout) => .timeout

/-- `parse()`.  If it reads beyond the tokens where that throws, the iterator stays at the last one. -/
def readStmt (A : RArgs) (bells : Int) (src : Src) : Out Stmt × Src :=
  let r := parseC { msiril := A.T.msiril, noImport := A.noImport, lits := A.lits bells } src.toks
  if src.bad ∧ r.2 = [] then (.throw .bellInvalid, ⟨src.toks.getLast?.toList, true⟩) else (r.1, ⟨r.2, src.bad⟩)

/-- `parser::error_policy` (parser.h:44). -/
inductive Policy
  | fatal | propagate | warn
  deriving DecidableEq, Repr

/-- The loop of `parser::run` (parser.cpp:1026-1050) with the `count`; `n` bounds its passes. -/
def runLoop (A : RArgs) (imp : Str → World → Ex Unit) (ep : Policy) : (n : Nat) → Src → (count : Nat) → World → Ex Nat
  | 0, _, _, _ => .fuel
  | n + 1, src, count, w =>
    let failed (w : World) (src : Src) : Ex Nat :=
      let w := { w with reports := w.reports + 1 }
      match ep with
      | .fatal => .exit 2 w
      | .propagate => .err w
      | .warn => runLoop A imp ep n src count w
    match readStmt A w.v.bells src with
    | (.ok .eof, _) => .ok count w
    | (.ok s, src) =>
      match execS A imp s w with
      | .ok _ w => runLoop A imp ep n src (count + 1) w
      | .err w => failed w src
      | .escape w => .escape w
      | .exit c w => .exit c w
      | .ub => .ub
      | .fuel => .fuel
    | (.throw _, src) => failed w src
    | (.ub, _) => .ub
    | (.timeout, _) => .fuel

/-- The end of the destructor of `restore_values` (statement.cpp:225-232). -/
def World.resume (i : Bool) (first : Option Expr) (w : World) : World :=
  match first with
  | none => { w with interactive := i, e := { w.e with syms := w.e.syms.undefine firstName } }
  | some x => ({ w with interactive := i } : World).defineSym firstName x

/-- The destructor of `restore_values` (statement.cpp:223-233). -/
def restore (b : Int) (i : Bool) (first : Option Expr) (w : World) : Ex Unit :=
  (if b > 0 then (match setBells b w with | .ok _ w => .ok () w | .fuel => .fuel | _ => .ub) else .ok () w : Ex Unit).bind fun _ w =>
  .ok () (w.resume i first)

/-- The body of `import_stmt::execute` (statement.cpp:236-249): the file is run with other imports going to `imp`.  The loop runs at most once for
every token. -/
def importText (A : RArgs) (imp : Str → World → Ex Unit) (name : Str) (w : World) : Ex Unit :=
  match A.files name with
  | none => .err w
  | some text =>
    (Ex.lift w (openSrc A text)).bind fun src w =>
    (runLoop A imp .propagate (src.toks.length + 1) src 0 { w with interactive := false }).bind fun _ w => .ok () w

/-- What the destructor of `restore_values` makes of how the body ends; `exit` does not run it. -/
def importEnd (w : World) : Ex Unit → Ex Unit
  | .ok _ w' => restore w.v.bells w.interactive (w.e.syms firstName) w'
  | .err w' => (restore w.v.bells w.interactive (w.e.syms firstName) w').bind fun _ w => .err w
  | .escape w' => (restore w.v.bells w.interactive (w.e.syms firstName) w').bind fun _ w => .escape w
  | r => r

/-- `import_stmt::execute` (statement.cpp:205-250); the number bounds the depth of imports. -/
def importC (A : RArgs) : (depth : Nat) → Str → World → Ex Unit
  | 0, _, _ => .fuel
  | d + 1, name, w => importEnd w (importText A (importC A d) name w)

/-- `parser::run` on an input. -/
def runC (A : RArgs) (depth n : Nat) (ep : Policy) (src : Src) (w : World) : Ex Nat := runLoop A (importC A depth) ep n src 0 w

/-- Proving the symbol (main.cpp:169-181). -/
def firstBody (A : RArgs) (depth : Nat) (w : World) : Ex Unit :=
  (Ex.lift w (openSrc A ("prove ".toList ++ A.proveSymbol))).bind fun src w =>
  (Ex.lift w (readStmt A w.v.bells src).1).bind fun s w =>
  (Ex.lift w (readStmt A w.v.bells (readStmt A w.v.bells src).2).1).bind fun s' w =>
  match s' with
  | .eof => execS A (importC A depth) s w
  | _ => .exit 3 w

/-- What becomes of an exception (main.cpp:184-189). -/
def firstEnd : Ex Unit → Ex Unit
  | .err w => .exit 2 { w with reports := w.reports + 1 }
  | r => r

/-- `prove_first_symbol` (main.cpp:160-190). -/
def proveFirst (A : RArgs) (depth : Nat) (w : World) : Ex Unit :=
  if A.proveSymbol ≠ firstName ∨ (¬ w.done ∧ (w.e.syms firstName).isSome) then firstEnd (firstBody A depth w) else .ok () w

/-- The program is read and run, if there is one; the result is whether it has a statement (main.cpp:199-203). -/
def readProgram (A : RArgs) (depth n : Nat) (text : Option Str) (w : World) : Ex Bool :=
  match text with
  | none => .ok true w
  | some text =>
    (Ex.lift w (openSrc A text)).bind fun src w =>
    (runC A depth n (if w.interactive then .warn else .fatal) src w).bind fun k w => .ok (decide (k ≠ 0)) w

/-- `prove_stream` (main.cpp:193-217); `none` is no input.  The result is whether nothing failed. -/
def proveStream (A : RArgs) (depth n : Nat) (text : Option Str) (w : World) : Ex Bool :=
  (readProgram A depth n text { w with failed := false }).bind fun any w =>
  (if any ∧ A.proveSymbol ≠ [] then proveFirst A depth w else .ok () w).bind fun _ w =>
  if A.proveOne ∧ ¬ w.done then .exit 2 { w with reports := w.reports + 1 }
  else .ok (!w.failed) { w with e := { w.e with out := w.e.out ++ if w.interactive then ['\n'] else [] } }

/-- The exit code (main.cpp:310-333). -/
def exitCode (A : RArgs) : Ex Bool → Ex Nat
  | .ok true w => .ok 0 w
  | .ok false w => .ok (if A.determineBells then 0 else 1) w
  | .err w => .ok 2 { w with reports := w.reports + 1 }
  | .escape w => .ok 2 { w with reports := w.reports + 1 }
  | .exit c w => .ok c w
  | .ub => .ub
  | .fuel => .fuel

/-- `main` (main.cpp:300-333) behind the reading of the arguments and `initialise`, without `--filter`: the exit code. -/
def mainC (A : RArgs) (depth n : Nat) (text : Option Str) (w : World) : Ex Nat := exitCode A (proveStream A depth n text w)

end Ringing.Siril
