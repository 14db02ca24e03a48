import Verif.Model.Prover
import Verif.Model.Music
import Verif.Model.Method
import Verif.Model.MethodName
/-
Model of the gsiril interpreter (apps/gsiril): expression.cpp, expr_base.cpp, functions.cpp,
proof_context.cpp, symbol_table.cpp and the parts of execution_context.cpp they use.

The interpreter is written with a step budget, because scripts need not end.  A script runs in a state
`St` (a `proof_context` with what it reaches of its `execution_context`), and every call ends with a value,
one of the two script exceptions, a C++ exception, undefined behaviour, or without budget.

Simplifications, apart from those noted at definitions:
* strings are lists of bytes; the parser is not modelled here, programs are given as trees;
* the tracing of symbols (proof_context.cpp:175-191), the underlining of `_` in sirilic mode
  (proof_context.cpp:358-370) and the debug output in error messages are left out;
* integers are unbounded where they are only counted (lines, rows, nodes), and `RINGING_LLONG` arithmetic that
  overflows is undefined behaviour.
-/
namespace Ringing.Siril

/-- `std::string`. -/
abbrev Str := List Char

/-- `expression::type_t` (expr_base.h:70-75). -/
inductive Ty
  | boolean | integer | transp | none
  deriving DecidableEq, Repr

/-- `cmp_node::cmp_t` (expression.h:367-369). -/
inductive Cmp
  | eq | ne | gt | lt | ge | le
  deriving DecidableEq, Repr

/-- `script_exception::type` (expr_base.h:168-179). -/
inductive Exc
  | abort | brk
  deriving DecidableEq, Repr

/-- `load_fn_impl::type_t` (functions.cpp:111). -/
inductive Load
  | full | leadOnly | leadHead
  deriving DecidableEq, Repr

/-- The functions registered in functions.cpp (lines 43-266). -/
inductive Fn
  | at_ | pos | rowno | swap
  | load (k : Load)
  | stagename | music
  | runs (p : Music.Pos)
  | methname | pnstr

/-- The flags of a `string_node` (expression.h:101-103). -/
structure SFlags where
  interpolate : Bool := false
  toParent : Bool := false
  suppressNl : Bool := false
  abort : Bool := false
  deriving DecidableEq, Repr

/-- The nodes of expressions: the classes of expression.h and the functions of functions.cpp. -/
inductive Expr
  | list (car cdr : Expr)
  | nop
  | rep (count : Int) (child : Expr)
  | rev (child : Expr)
  | str (s : Str) (f : SFlags)
  | pn (cs : List Change) (name : Str)
  | repl (pn shift : Expr) (atBegin : Bool)
  | merge (block replacement : Expr)
  | transp (r : Row)
  | sym (s : Str)
  | assign (s : Str) (e : Expr)
  | appendAssign (s : Str) (e : Expr)
  | immAssign (s : Str) (e : Expr)
  | endproof
  | isproving
  | isrounds
  | pattern (bells : Nat) (d : MusicDetails)
  | opaque (m : Music)
  | defined (s : Str)
  | bool (b : Bool)
  | and (a b : Expr)
  | or (a b : Expr)
  | not (a : Expr)
  | cmp (a b : Expr) (c : Cmp)
  | bells
  | length
  | int (v : Int)
  | add (a b : Expr) (sign : Int)
  | mod (a b : Expr)
  | div (a b : Expr)
  | append (a b : Expr)
  | mult (a b : Expr)
  | incr (s : Str) (v : Int)
  | ifMatch (test iftrue : Expr) (iffalse : Option Expr)
  | exc (t : Exc)
  | call (name : Str) (args : List Expr)
  | save (name : Str)
  | array (vals : List Expr)
  | fn (f : Fn)

/-- `symbol_table` (symbol_table.h:40-56): a map. -/
abbrev Table := Str → Option Expr

/-- `symbol_table::define` (symbol_table.cpp:41-56), without its result. -/
def Table.define (t : Table) (s : Str) (e : Expr) : Table := fun x => if x = s then some e else t x

/-- `symbol_table::undefine` (symbol_table.cpp:58-61). -/
def Table.undefine (t : Table) (s : Str) : Table := fun x => if x = s then none else t x

/-- What a proof reads of the arguments and of the `execution_context` and does not change.
`mask` is the row mask with which `@` is printed, `bellText` how `bellfmt` prints a bell, `library` what
`methset().find` finds; `junk` is the memory after a row that `music` reads, and `place` where
the standard library inserts a row among equal ones. -/
structure Env where
  bells : Int
  extents : Int
  rounds : Row
  maxLength : Nat := 0
  nodeLimit : Nat := 0
  msiril : Bool := false
  /-- `everyrow_only` (-E) -/
  everyrowOnly : Bool := false
  filter : Bool := false
  quiet : Nat := 0
  mask : Music := Music.new 0
  music : Music := Music.new 0
  bellText : Nat → Str := Bell.write
  library : Str → Option (Method × Str) := fun _ => none
  junk : Nat := 0
  place : Prover → Row → Nat := fun _ _ => 0

/-- What a proof changes of the `execution_context`: the symbols, the number of nodes executed, and what
has been written to the output. -/
structure ECtx where
  syms : Table
  nodes : Nat
  out : Str

/-- `proof_context` (proof_context.h:123-141) with the changing part of its `execution_context`.
`parent` says whether there is a parent, and then whether it prints; `live` that `output` is not null.
`rung` and `ended` are not in the code: they record the rows rung in this context, the first one first, and how many
there were when `endproof` was first executed. -/
structure St where
  e : ECtx
  dsyms : Table
  r : Row
  lastRow : Row
  maxLength : Nat
  p : Prover
  proving : Bool
  parent : Option Bool
  mus : Music
  live : Bool
  silent : Bool
  rung : List Row
  ended : Option Nat

/-- How a call of the interpreter ends: with a value, a `script_exception` (`brk`, `abort`), another
exception, undefined behaviour, or not within the budget. -/
inductive Res (α : Type) : Type
  | ok (a : α) (s : St)
  | brk (s : St)
  | abort (s : St)
  | err (s : St)
  | ub
  | fuel

/-- A piece of the interpreter. -/
abbrev M (α : Type) := St → Res α

namespace M

def pure {α : Type} (a : α) : M α := fun s => .ok a s

def bind {α β : Type} (m : M α) (f : α → M β) : M β := fun s =>
  match m s with
  | .ok a s => f a s
  | .brk s => .brk s
  | .abort s => .abort s
  | .err s => .err s
  | .ub => .ub
  | .fuel => .fuel

instance : Monad M where
  pure := pure
  bind := bind

/-- `throw runtime_error(...)`. -/
def err {α : Type} : M α := fun s => .err s
/-- Undefined behaviour. -/
def ub {α : Type} : M α := fun _ => .ub
/-- The budget is used up. -/
def fuel {α : Type} : M α := fun _ => .fuel
/-- `throw script_exception(t)`. -/
def exc {α : Type} : Exc → M α
  | .abort => fun s => .abort s
  | .brk => fun s => .brk s
def get : M St := fun s => .ok s s

/-- `if ( b ) m;` -/
def cond (b : Bool) (m : M Unit) : M Unit := if b then m else pure ()

/-- A call of the library. -/
def lift {α : Type} : Out α → M α
  | .ok a => pure a
  | .throw _ => err
  | .ub => ub
  | .timeout => fuel

/-- Code with a destructor `d` run at its end, however it ends. -/
def finally' {α : Type} (m : M α) (d : St → St) : M α := fun s =>
  match m s with
  | .ok a s => .ok a (d s)
  | .brk s => .brk (d s)
  | .abort s => .abort (d s)
  | .err s => .err (d s)
  | .ub => .ub
  | .fuel => .fuel

/-- `try { m } catch ( script_exception const& ex ) { if ( ex.t != do_break ) throw; }`. -/
def catchBreak (m : M Unit) : M Unit := fun s =>
  match m s with
  | .brk s => .ok () s
  | x => x

/-- `try { a = m; } catch ( script_exception const& ) {}` with `a` initially `a0`. -/
def catchAll {α : Type} (a0 : α) (m : M α) : M α := fun s =>
  match m s with
  | .brk s => .ok a0 s
  | .abort s => .ok a0 s
  | x => x

end M

/-- A `RINGING_LLONG`: overflow is undefined behaviour. -/
def ll (x : Int) : M Int := if -2 ^ 63 ≤ x ∧ x < 2 ^ 63 then M.pure x else M.ub

/-- `proof_context::silent_clone` (proof_context.cpp:388-398). -/
def St.clone (s : St) : St :=
  { s with
    p := s.p.branch.disable
    maxLength := 0
    silent := true
    live := false
    parent := some (!s.silent && s.live)
    rung := []
    ended := none }

/-- Code run with a silent clone, which is destroyed afterwards (expression.cpp:958, functions.cpp:221,
proof_context.cpp:337): only the `execution_context` keeps its changes. -/
def inClone {α : Type} (m : M α) : M α := fun s =>
  match m s.clone with
  | .ok a c => .ok a { s with e := c.e }
  | .brk c => .brk { s with e := c.e }
  | .abort c => .abort { s with e := c.e }
  | .err c => .err { s with e := c.e }
  | .ub => .ub
  | .fuel => .fuel

/-- `execution_context::increment_node_count` (execution_context.cpp:149-154): the counter is
incremented twice. -/
def tick (v : Env) : M Unit := fun s =>
  let n := s.e.nodes + 1 + 1
  let s := { s with e := { s.e with nodes := n } }
  if n = v.nodeLimit then .err s else .ok () s

/-- `proof_context::do_output`, `output_string` and `output_newline` (proof_context.cpp:97-107, 379-386). -/
def output (t : Str) (toParent : Bool) : M Unit := fun s =>
  let prints := match (if toParent then s.parent else none) with
    | some b => b
    | none => !s.silent && s.live
  .ok () (if prints then { s with e := { s.e with out := s.e.out ++ t } } else s)

/-- `proof_context::define_symbol` (proof_context.cpp:223-226). -/
def defineDyn (n : Str) (x : Expr) : M Unit := fun s => .ok () { s with dsyms := s.dsyms.define n x }

/-- `proof_context::lookup_symbol` (proof_context.cpp:204-209) with
`execution_context::lookup_symbol` (execution_context.cpp:112-118). -/
def lookup (n : Str) : M Expr := fun s =>
  match s.dsyms n with
  | some x => .ok x s
  | none =>
    match s.e.syms n with
    | some x => .ok x s
    | none => .err s

/-- `proof_context::defined` (proof_context.cpp:211-214). -/
def isDefined (s : St) (n : Str) : Bool := (s.dsyms n).isSome || (s.e.syms n).isSome

/-- The name `__first__`. -/
def firstName : Str := "__first__".toList

/-- `execution_context::define_symbol` (execution_context.cpp:138-147), without its result. -/
def Table.defineFirst (t : Table) (n : Str) (x : Expr) : Table :=
  if (t n).isSome then t.define n x
  else if ((t.define n x) firstName).isNone then (t.define n x).define firstName x
  else t.define n x

/-- `proof_context::save_symbol` (proof_context.cpp:216-221). -/
def saveSymbol (n : Str) : M Unit := fun s =>
  if s.parent.isSome then .ok () s
  else M.bind (lookup n) (fun x => fun s => .ok () { s with e := { s.e with syms := s.e.syms.defineFirst n x } }) s

/-- `proof_context::disable_proving` (proof_context.cpp:157-161). -/
def disableProving : M Unit := fun s =>
  .ok () { s with lastRow := if s.proving then s.r else s.lastRow, proving := false,
                  ended := if s.ended.isNone then some s.rung.length else s.ended }

/-- `proof_context::isrounds` (proof_context.cpp:163-166).  The number of extents is converted to
`size_t`, so that a negative one is never reached. -/
def St.isrounds (v : Env) (s : St) : Bool := decide (s.r = v.rounds) && decide ((s.p.countRow s.r : Int) = v.extents)

/-- Reading a bell of a row, or the memory after it. -/
def readBell (v : Env) (r : Row) (i : Nat) : Out Nat := .ok (r.getD i v.junk)

/-- The calls between expressions: `expression::execute`, `evaluate`, `bool_evaluate` and so on
(expr_base.h:134-160).  `strNl` also returns what is written through `no_nl`. -/
structure Calls where
  exec : Expr → Int → M Unit
  eval : Expr → M Expr
  bool : Expr → M Bool
  int : Expr → M Int
  str : Expr → M Str
  strNl : Expr → M (Str × Bool)
  pn : Expr → M (List Change)
  mus : Expr → M Music
  arr : Expr → M (List Expr)
  call : Expr → List Expr → M Expr
  repl : Expr → List Change → M (List Change)
  type : Expr → M Ty
  name : Expr → M Str

/-- The rows that are to be proved: those rung before `endproof`. -/
def St.proved (s : St) : List Row :=
  match s.ended with
  | none => s.rung
  | some k => s.rung.take k

/-- Without budget. -/
def Calls.none : Calls :=
  ⟨fun _ _ => .fuel, fun _ => .fuel, fun _ => .fuel, fun _ => .fuel, fun _ => .fuel, fun _ => .fuel,
   fun _ => .fuel, fun _ => .fuel, fun _ => .fuel, fun _ _ => .fuel, fun _ _ => .fuel, fun _ => .fuel,
   fun _ => .fuel⟩

section
variable (v : Env) (c : Calls)

/-- `proof_context::execute_symbol` (proof_context.cpp:173-195), without the tracing. -/
def execSymbol (n : Str) (dir : Int := 1) : M Unit := do
  let x ← lookup n
  c.exec x dir

/-- `proof_context::execute_everyrow` (proof_context.cpp:109-117): `silent` is not restored after an
exception. -/
def execEveryrow : M Unit := do
  let s0 ← M.get
  let _ ← (fun s => .ok () (if v.everyrowOnly && !v.filter then { s with silent := false } else s) : M Unit)
  execSymbol c "everyrow".toList
  (fun s => .ok () { s with silent := s0.silent } : M Unit)

/-- `p.add_row(r)` in `prove` (proof_context.cpp:134). -/
def addRow : M Bool := fun s =>
  match s.p.addRowC (v.place s.p s.r) s.r with
  | .ok (b, p) => .ok b { s with p := p }
  | .throw _ => .err s
  | .ub => .ub
  | .timeout => .fuel

/-- `mus.process_row(r, backstroke)` (proof_context.cpp:135). -/
def processMusic (back : Bool) : M Unit := fun s =>
  match s.mus.processC (readBell v s.r) s.r back with
  | .ok (m, _) => .ok () { s with mus := m }
  | .throw _ => .err s
  | .ub => .ub
  | .timeout => .fuel

/-- The rest of `permute_and_prove_t::prove` (proof_context.cpp:135-142) after the row was added with result
`rv`; the result is `backstroke` afterwards. -/
def proveRest (rv back : Bool) : M Bool := do
  processMusic v back
  execEveryrow v c
  let s ← M.get
  M.cond (decide (s.maxLength ≠ 0 ∧ s.p.size > s.maxLength)) (execSymbol c "toolong".toList)
  let s ← M.get
  M.cond (s.isrounds v) (execSymbol c "rounds".toList)
  M.cond (!rv) (execSymbol c "conflict".toList)
  pure (!back)

/-- `permute_and_prove_t::prove` (proof_context.cpp:131-143); its result is not used, and `backstroke` afterwards is
returned instead. -/
def prove (back : Bool) : M Bool := do
  let s ← M.get
  if !s.proving then pure back
  else do
    let rv ← addRow v
    proveRest v c rv back

/-- `r *= c` (proof_context.cpp:119-129). -/
def permute (f : Row → Out Row) : M Unit := fun s =>
  match f s.r with
  | .ok r => .ok () { s with r := r, rung := s.rung ++ [r] }
  | .throw _ => .err s
  | .ub => .ub
  | .timeout => .fuel

/-- `for_each( changes.begin(), changes.end(), ctx.permute_and_prove() )` (expression.cpp:312-318): the
function object is made once for the block, with `backstroke` false. -/
def ringAll : List Change → Bool → M Unit
  | [], _ => pure ()
  | ch :: cs, back => do
    permute (fun r => r.applyC ch)
    let back ← prove v c back
    ringAll cs back

/-- `do_escape_seq` (proof_context.cpp:244-280): the text after `\x`, `\u` or `\U` and the number of digits. -/
def hexVal (ch : Char) : Option Nat :=
  if '0' ≤ ch ∧ ch ≤ '9' then some (ch.toNat - 48)
  else if 'A' ≤ ch ∧ ch ≤ 'F' then some (ch.toNat - 55)
  else if 'a' ≤ ch ∧ ch ≤ 'f' then some (ch.toNat - 87)
  else none

def utf8 (n : Nat) : Option Str :=
  if n < 0x80 then some [Char.ofNat n]
  else if n < 0x800 then some [Char.ofNat (0xC0 + n / 64), Char.ofNat (0x80 + n % 64)]
  else if n < 0x10000 then
    some [Char.ofNat (0xE0 + n / 4096), Char.ofNat (0x80 + n / 64 % 64), Char.ofNat (0x80 + n % 64)]
  else if n < 0x110000 then
    some [Char.ofNat (0xF0 + n / 262144), Char.ofNat (0x80 + n / 4096 % 64), Char.ofNat (0x80 + n / 64 % 64),
      Char.ofNat (0x80 + n % 64)]
  else none

def escSeq (rest : Str) (len : Nat) : Option Str :=
  if rest.length < len then none
  else do
    let ds ← (rest.take len).mapM hexVal
    utf8 (ds.foldl (fun x d => 16 * x + d) 0)

/-- `proof_context::string_escapes` (proof_context.cpp:282-308); the number is how many characters to skip. -/
def escapes : Str → (skip : Nat) → Option Str
  | [], _ => some []
  | _ :: cs, k + 1 => escapes cs k
  | ch :: cs, 0 =>
    if ch = '\\' then
      match cs with
      | [] => none
      | d :: rest =>
        if d = 'n' then (escapes cs 1).map ('\n' :: ·)
        else if d = 't' then (escapes cs 1).map ('\t' :: ·)
        else if d = 'x' then do let a ← escSeq rest 2; let b ← escapes cs 3; pure (a ++ b)
        else if d = 'u' then do let a ← escSeq rest 4; let b ← escapes cs 5; pure (a ++ b)
        else if d = 'U' then do let a ← escSeq rest 8; let b ← escapes cs 9; pure (a ++ b)
        else if d = '\'' then (escapes cs 1).map ('"' :: ·)
        else (escapes cs 1).map (d :: ·)
    else (escapes cs 0).map (ch :: ·)

/-- The result of `substitute_string`: the text, `do_exit` and `no_nl`. -/
structure Subst where
  text : Str
  exit : Bool
  noNl : Bool

/-- `proof_context::substitute_string` (proof_context.cpp:310-377), from a place in the string on, after
skipping some characters.  `@` with a row not matched by the mask makes the whole result empty. -/
def subst : Str → (skip : Nat) → Subst → M Subst
  | [], _, a => pure a
  | _ :: cs, k + 1, a => subst cs k a
  | ch :: cs, 0, a =>
    if ch = '@' then do
      let s ← M.get
      let (m, hit) ← M.lift (v.mask.processC (readBell v s.r) s.r false)
      if hit then
        match m.info with
        | [] => M.ub
        | d :: _ => subst cs 0 { a with text := a.text ++ d.wilds.flatMap v.bellText }
      else pure { a with text := [] }
    else if ch = '$' then
      if cs.head? = some '{' ∧ v.msiril = false then
        if cs.contains '}' then do
          let nm := (cs.drop 1).takeWhile (· ≠ '}')
          let x ← lookup nm
          let t ← inClone (c.str x)
          subst cs (nm.length + 2) { a with text := a.text ++ t }
        else M.err
      else if cs.head? = some '$' then subst cs 1 { a with exit := true }
      else do
        let s ← M.get
        subst cs 0 { a with text := a.text ++ decimal s.p.duplicates }
    else if ch = '#' then do
      let s ← M.get
      subst cs 0 { a with text := a.text ++ decimal s.p.size }
    else if ch = '\\' then
      match cs with
      | [] => pure { a with noNl := true }
      | d :: _ => subst cs 1 { a with text := a.text ++ ['\\', d] }
    else subst cs 0 { a with text := a.text ++ [ch] }

/-- The loop of `repeated_node::execute` (expression.cpp:119-122) for a finite count: `i` is the value of the
loop counter. -/
def repLoop (body : M Unit) : (k : Nat) → (i : Int) → M Unit
  | 0, _ => pure ()
  | k + 1, i => do
    defineDyn "loop_counter".toList (.int i)
    body
    repLoop body k (i + 1)

/-- The same for `repeat`: it ends by an exception. -/
def repForever (body : M Unit) : (n : Nat) → (i : Int) → M Unit
  | 0, _ => M.fuel
  | n + 1, i => do
    defineDyn "loop_counter".toList (.int i)
    body
    repForever body n (i + 1)

/-- The number of passes of `for (i=1; count == -1 || i<=count; ++i)` if `count` is not -1. -/
def passes (count : Int) : Nat := count.toNat

/-- `scoped_variable` (proof_context.cpp:450-469) for `loop_counter` around some code. -/
def withCounter {α : Type} (m : M α) : M α := fun s =>
  let n := "loop_counter".toList
  if isDefined s n then
    match lookup n s with
    | .ok old s => M.finally' m (fun s => { s with dsyms := s.dsyms.define n old }) s
    | _ => .err s
  else M.finally' m (fun s => { s with dsyms := s.dsyms.undefine n }) s

/-- The loop of `repeated_node::pn_evaluate` (expression.cpp:136-146) with its handler: after a `break` the
changes of the passes before are returned. -/
def repPn (body : M (List Change)) : (k : Nat) → (i : Int) → List Change → M (List Change)
  | 0, _, acc => pure acc
  | k + 1, i, acc => fun s =>
    match M.bind (defineDyn "loop_counter".toList (.int i)) (fun _ => body) s with
    | .ok a s => repPn body k (i + 1) (acc ++ a) s
    | .brk s => .ok acc s
    | .abort s => .abort s
    | .err s => .err s
    | .ub => .ub
    | .fuel => .fuel

/-- The type of a function (functions.cpp). -/
def Fn.type : Fn → Ty
  | .at_ | .pos | .rowno | .music => .integer
  | .swap => .transp
  | _ => .none

/-- `split_path` (proof_context.cpp:407-422). -/
def splitPath (p : Str) : List Str := if p = [] then [] else p.splitOn ':'

/-- `proof_context::load_method` (proof_context.cpp:427-448). -/
def loadMethod (nm : Str) : M (Method × Str) := do
  let s ← M.get
  let sufs ← (if (s.e.syms "method_suffixes".toList).isSome then do
      let x ← lookup "method_suffixes".toList
      let t ← c.str x
      pure (splitPath t)
    else pure [[]] : M (List Str))
  match sufs.findSome? fun t => v.library (if t = [] then nm else nm ++ ' ' :: t) with
  | some m => pure m
  | none => M.err

/-- `fnnode::call` of the functions (functions.cpp:43-232).  Runs of a negative length are not modelled: they
count as not ending within the budget. -/
def fnCall : Fn → List Expr → M Expr
  | .at_, [a] => do
    let i ← c.int a
    let i := i32 i
    if i < 1 ∨ i ≥ v.bells then M.err
    else do
      let s ← M.get
      if i > s.r.length then pure (.int i)
      else do
        let x ← M.lift (vget s.r (i - 1).toNat)
        pure (.int (x + 1))
  | .pos, [a] => do
    let i ← c.int a
    let s ← M.get
    let x ← ll (i - 1)
    pure (.int ((s.r.find (x % 256).toNat : Int) + 1))
  | .rowno, [] => do
    let s ← M.get
    pure (.int s.p.size)
  | .swap, [a] => do
    let i ← c.int a
    let i ← ll (i - 1)
    let i := i32 i
    if i = 2 ^ 31 - 1 then M.ub
    else if i ≥ v.bells ∨ i + 1 ≥ v.bells ∨ i < 0 ∨ i + 1 < 0 then M.err
    else do
      let r ← M.lift (Row.swapC (Row.roundsC v.bells.toNat) i.toNat (i + 1).toNat)
      pure (.transp r)
  | .swap, [a, b] => do
    let i ← c.int a
    let i ← ll (i - 1)
    let i := i32 i
    let j ← c.int b
    let j ← ll (j - 1)
    let j := i32 j
    if i ≥ v.bells ∨ j ≥ v.bells ∨ i < 0 ∨ j < 0 then M.err
    else if i = j then M.err
    else do
      let r ← M.lift (Row.swapC (Row.roundsC v.bells.toNat) i.toNat j.toNat)
      pure (.transp r)
  | .load k, [a] => do
    let nm ← c.str a
    let (m, title) ← loadMethod v c nm
    match k, m.ch.getLast? with
    | .full, _ => pure (.pn m.ch title)
    | .leadHead, some x => pure (.pn [x] [])
    | .leadOnly, some _ => pure (.pn m.ch.dropLast title)
    | _, none => M.ub
  | .stagename, [a] => do
    let n ← c.int a
    pure (.str (Method.stagename (i32 n)) {})
  | .music, [] => do
    let s ← M.get
    let x ← M.lift (s.mus.getScoreC none)
    pure (.int x)
  | .runs p, args =>
    if args.length > 2 then M.err
    else do
      let len ← (match args with | a :: _ => c.int a | [] => pure 4 : M Int)
      let dir ← (match args with | _ :: b :: _ => c.int b | _ => pure 0 : M Int)
      if i32 len < 0 then M.fuel
      else do
        let m ← M.lift (Music.makeRunsC v.bells.toNat (i32 len).toNat p (i32 dir) 1 1)
        pure (.opaque m)
  | .methname, [a] => do
    let t ← c.name a
    pure (.str t {})
  | .pnstr, a :: as => do
    let cs ← inClone ((a :: as).foldlM (fun acc x => do let y ← c.pn x; pure (acc ++ y)) [])
    let t ← M.lift (Method.formatC ⟨0, cs⟩ Method.M_EXTERNAL)
    pure (.str t {})
  | _, _ => M.err

/-- Comparison of numbers (expression.cpp:726-736). -/
def cmpInt : Cmp → Int → Int → Bool
  | .eq, l, r => decide (l = r)
  | .ne, l, r => decide (l ≠ r)
  | .gt, l, r => decide (l > r)
  | .lt, l, r => decide (l < r)
  | .ge, l, r => decide (l ≥ r)
  | .le, l, r => decide (l ≤ r)

/-- `operator<` of `std::string`. -/
def strLt : Str → Str → Bool
  | [], [] => false
  | [], _ :: _ => true
  | _ :: _, [] => false
  | a :: as, b :: bs => decide (a.toNat < b.toNat) || (decide (a = b) && strLt as bs)

/-- Comparison of strings (expression.cpp:737-758). -/
def cmpStr : Cmp → Str → Str → Bool
  | .eq, l, r => decide (l = r)
  | .ne, l, r => decide (l ≠ r)
  | .gt, l, r => strLt r l
  | .lt, l, r => strLt l r
  | .ge, l, r => !strLt l r
  | .le, l, r => !strLt r l

/-- `bool_evaluate` of a music pattern (expression.cpp:626-631, 647-652). -/
def matchesRow (m : Music) : M Bool := do
  let s ← M.get
  let (m, _) ← M.lift (m.processC (readBell v s.r) s.r false)
  let x ← M.lift (m.getScoreC none)
  pure (decide (x ≠ 0))

/-- `type` of the nodes (expr_base.h:95, 110, 119; expression.cpp:88-91, 475-479, 913-920, 1075-1078). -/
def typeN : Expr → M Ty
  | .list _ cdr => c.type cdr
  | .sym n => do let x ← lookup n; c.type x
  | .call n _ => do let x ← lookup n; c.type x
  | .mult a b => do
    let ta ← c.type a
    if ta = .integer then do
      let tb ← c.type b
      pure (if tb = .integer then .integer else .none)
    else pure .none
  | .fn f => pure f.type
  | .isproving | .isrounds | .pattern .. | .opaque _ | .defined _ | .bool _ | .and .. | .or .. | .not _
  | .cmp .. => pure .boolean
  | .bells | .length | .int _ | .add .. | .mod .. | .div .. | .incr .. => pure .integer
  | _ => pure .none

/-- `name` of the nodes (expression.h:151; expression.cpp:320-322, 481-485; expr_base.cpp:91-93). -/
def nameN : Expr → M Str
  | .pn _ nm => pure nm
  | .repl p _ _ => c.name p
  | .sym n => do let x ← lookup n; c.name x
  | _ => M.err

/-- `both operands are integers`, with the short-circuit of `&&` (expression.cpp:868-869, 889-890, 899-900, 907-908). -/
def bothInt (a b : Expr) : M Bool := do
  let ta ← c.type a
  if ta = .integer then do
    let tb ← c.type b
    pure (decide (tb = .integer))
  else pure false

/-- `call_node::evaluate` (expression.cpp:1034-1038). -/
def evalCall (n : Str) (args : List Expr) : M Expr := do
  let x ← lookup n
  c.call x args

/-- `int_evaluate` of the nodes.  expression.cpp:67-71, 439-443, 785-788, 795-798, 805-809, 819-823, 832-836, 887-895, 931-936,
1045-1048; expression.h:409-410. -/
def intN : Expr → M Int
  | .list car cdr => do c.exec car 1; c.int cdr
  | .sym n => do let x ← lookup n; c.int x
  | .bells => pure v.bells
  | .length => do let s ← M.get; pure s.p.size
  | .int x => pure x
  | .add a b sign => do
    let l ← c.int a
    let r ← c.int b
    let t ← ll (sign * r)
    ll (l + t)
  | .mod a b => do
    let l ← c.int a
    let r ← c.int b
    if r = 0 ∨ l = -2 ^ 63 ∧ r = -1 then M.ub else pure (l.tmod r)
  | .div a b => do
    let l ← c.int a
    let r ← c.int b
    if r = 0 ∨ l = -2 ^ 63 ∧ r = -1 then M.ub else pure (l.tdiv r)
  | .mult a b => do
    let t ← bothInt c a b
    if t then do
      let l ← c.int a
      let r ← c.int b
      ll (l * r)
    else M.err
  | .incr n x => do
    let e ← lookup n
    let i ← c.int e
    let res ← ll (i + x)
    defineDyn n (.int res)
    pure res
  | .call n args => do let x ← evalCall c n args; c.int x
  | _ => M.err

/-- `string_node::evaluate` (expression.cpp:180-195): the text and the flags of the result. -/
def evalStr (t : Str) (f : SFlags) : M (Str × SFlags) :=
  if f.interpolate then do
    let a ← subst v c t 0 ⟨[], false, false⟩
    pure (a.text, { toParent := f.toParent, suppressNl := a.noNl, abort := a.exit })
  else pure (t, f)

/-- `string_evaluate` of the nodes (expression.cpp:73-77, 197-209, 445-449, 845-849, 905-911, 1050-1053;
expr_base.cpp:121-123). -/
def strN : Expr → M Str
  | .list car cdr => do c.exec car 1; c.str cdr
  | .str t f =>
    if f.interpolate then do
      let (t, f) ← evalStr v c t f
      let (t, _) ← c.strNl (.str t f)
      pure t
    else pure t
  | .sym n => do let x ← lookup n; c.str x
  | .append a b => do
    let l ← c.str a
    let r ← c.str b
    pure (l ++ r)
  | .mult a b => do
    let t ← bothInt c a b
    if t then do let x ← intN v c (.mult a b); pure (decimalInt x) else M.err
  | .call n args => do let x ← evalCall c n args; c.str x
  | e@(.bells) | e@(.length) | e@(.int _) | e@(.add ..) | e@(.mod ..) | e@(.div ..) | e@(.incr ..) => do
    let x ← intN v c e
    pure (decimalInt x)
  | _ => M.err

/-- `string_evaluate( ctx, no_nl )` of the nodes: `no_nl` is false before, and only strings and symbols
for them write it (expression.cpp:202-209, 451-455, 1055-1058; expr_base.cpp:55-58). -/
def strNlN : Expr → M (Str × Bool)
  | .str t f =>
    if f.interpolate then do
      let (t, f) ← evalStr v c t f
      c.strNl (.str t f)
    else pure (t, f.suppressNl)
  | .sym n => do let x ← lookup n; c.strNl x
  | e => do let t ← strN v c e; pure (t, false)

/-- `bool_evaluate` of the nodes (expression.cpp:61-65, 433-437, 595-598, 605-608, 626-631, 647-652, 664-667,
675-679, 688-692, 701-704, 712-759, 1040-1043). -/
def boolN : Expr → M Bool
  | .list car cdr => do c.exec car 1; c.bool cdr
  | .sym n => do let x ← lookup n; c.bool x
  | .isproving => do let s ← M.get; pure s.proving
  | .isrounds => do let s ← M.get; pure (s.isrounds v)
  | .pattern b d => do let m ← M.lift (Music.newWithC b d); matchesRow v m
  | .opaque m => matchesRow v m
  | .defined n => do let s ← M.get; pure (isDefined s n)
  | .bool b => pure b
  | .and a b => do let x ← c.bool a; if x then c.bool b else pure false
  | .or a b => do let x ← c.bool a; if x then pure true else c.bool b
  | .not a => do let x ← c.bool a; pure (!x)
  | .cmp a b k => do
    let lt ← c.type a
    let rt ← c.type b
    if lt = .boolean ∧ rt = .boolean then do
      let l ← c.bool a
      let r ← c.bool b
      match k with
      | .eq => pure (l == r)
      | .ne => pure (l != r)
      | _ => M.err
    else if lt = .boolean ∨ rt = .boolean then M.err
    else if lt = .integer ∧ rt = .integer then do
      let l ← c.int a
      let r ← c.int b
      pure (cmpInt k l r)
    else do
      let l ← c.str a
      let r ← c.str b
      if (lt = .integer ∨ rt = .integer) ∧ k ≠ .eq ∧ k ≠ .ne then M.err
      else pure (cmpStr k l r)
  | .call n args => do let x ← evalCall c n args; c.bool x
  | _ => M.err

/-- `do_replacement` (expression.cpp:326-342). -/
def doReplacement (mask : List Change) (off : Int) (atBegin : Bool) (m : List Change) : M (List Change) :=
  if (atBegin = false ∧ off ≥ m.length) ∨ off < 0 ∨ (off = 0 ∧ atBegin) ∨
      (atBegin ∧ off - 1 + mask.length > m.length) ∨ (atBegin = false ∧ mask.length > off + 1) then M.err
  else
    let i := if atBegin then (off - 1).toNat else m.length - (off + 1).toNat
    pure (m.take i ++ mask ++ m.drop (i + mask.length))

/-- `apply_replacement` of the nodes (expression.cpp:346-350, 364-368, 487-492). -/
def replN : Expr → List Change → M (List Change)
  | .pn cs _, m => doReplacement cs (if cs.length ≠ 0 then (cs.length : Int) - 1 else 0) false m
  | .repl p shift b, m => do
    let cs ← c.pn p
    let off ← c.int shift
    doReplacement cs off b m
  | .sym n, m => do let x ← lookup n; c.repl x m
  | _, _ => M.err

/-- `pn_evaluate` of the nodes (expression.cpp:79-85, 129-148, 161-165, 377-382, 457-461, 1060-1063;
expression.h:131-132).  For repeated nodes see `repPn`. -/
def pnN : Expr → M (List Change)
  | .list car cdr => do
    let a ← c.pn car
    let b ← c.pn cdr
    pure (a ++ b)
  | .rep count child => if count = -1 then M.err else withCounter (repPn (c.pn child) (passes count) 1 [])
  | .rev child => do let x ← c.pn child; pure x.reverse
  | .pn cs _ => pure cs
  | .merge a b => do
    let m ← c.pn a
    c.repl b m
  | .sym n => do let x ← lookup n; c.pn x
  | .call n args => do let x ← evalCall c n args; c.pn x
  | _ => M.err

/-- `music_evaluate` of the nodes (expression.cpp:463-467, 621-624, 642-645, 1065-1068). -/
def musN : Expr → M Music
  | .sym n => do let x ← lookup n; c.mus x
  | .pattern b d => M.lift (Music.newWithC b d)
  | .opaque m => pure m
  | .call n args => do let x ← evalCall c n args; c.mus x
  | _ => M.err

/-- `array_evaluate` of the nodes (expression.cpp:469-473, 851-857, 1070-1073, 1107-1110). -/
def arrN : Expr → M (List Expr)
  | .sym n => do let x ← lookup n; c.arr x
  | .append a b => do
    let l ← c.arr a
    let r ← c.arr b
    pure (l ++ r)
  | .call n args => do let x ← evalCall c n args; c.arr x
  | .array l => pure l
  | _ => M.err

/-- `call` of the nodes: only functions can be called (expr_base.cpp:79-83). -/
def callN : Expr → List Expr → M Expr
  | .fn f, args => fnCall v c f args
  | _, _ => M.err

/-- `if_match_node::evaluate_condition` (expression.cpp:956-983). -/
def condition (test : Expr) : M Bool := inClone (M.catchAll false (c.bool test))

/-- `evaluate` of the nodes (expression.cpp:55-59, 180-195, 384-387, 427-431, 897-903, 995-1002, 1034-1038;
expr_base.cpp:103-105, 115-117, 129-131). -/
def evalN : Expr → M Expr
  | .list car cdr => do c.exec car 1; c.eval cdr
  | .str t f => do let (t, f) ← evalStr v c t f; pure (.str t f)
  | .merge a b => do let cs ← pnN c (.merge a b); pure (.pn cs [])
  | .sym n => do let x ← lookup n; c.eval x
  | .append a b => do let t ← strN v c (.append a b); pure (.str t {})
  | .mult a b => do
    let t ← bothInt c a b
    if t then do let x ← intN v c (.mult a b); pure (.int x) else M.err
  | .ifMatch test t f => do
    let b ← condition c test
    if b then c.eval t
    else match f with
      | some f => c.eval f
      | none => M.err
  | .call n args => evalCall c n args
  | e@(.isproving) | e@(.isrounds) | e@(.pattern ..) | e@(.opaque _) | e@(.defined _) | e@(.bool _) | e@(.and ..)
  | e@(.or ..) | e@(.not _) | e@(.cmp ..) => do let b ← boolN v c e; pure (.bool b)
  | e@(.bells) | e@(.length) | e@(.int _) | e@(.add ..) | e@(.mod ..) | e@(.div ..) | e@(.incr ..) => do
    let x ← intN v c e
    pure (.int x)
  | _ => M.err

/-- `repeated_node::execute` (expression.cpp:114-127). -/
def execRep (n : Nat) (count : Int) (child : Expr) (dir : Int) : M Unit :=
  withCounter (M.catchBreak
    (if count = -1 then repForever (c.exec child dir) n 1
     else repLoop (c.exec child dir) (passes count) 1))

/-- `execute` of the nodes; `n` is the budget for `repeat`. -/
def execN (n : Nat) : Expr → Int → M Unit
  -- expression.cpp:48-53
  | .list car cdr, dir => do
    M.cond (decide (dir > 0)) (c.exec car dir)
    c.exec cdr dir
    M.cond (decide (dir ≤ 0)) (c.exec car dir)
  -- expression.cpp:98-100
  | .nop, _ => pure ()
  | .rep count child, dir => execRep c n count child dir
  -- expression.cpp:156-159
  | .rev child, dir => c.exec child (-dir)
  -- expression.cpp:167-178
  | .str t f, dir =>
    if f.interpolate then do
      let (t, f) ← evalStr v c t f
      c.exec (.str t f) dir
    else
      match escapes t 0 with
      | none => M.err
      | some t => do
        output t f.toParent
        M.cond (!f.suppressNl) (output ['\n'] f.toParent)
        M.cond f.abort (M.exc .abort)
  -- expression.cpp:312-318
  | .pn cs _, dir => ringAll v c (if dir > 0 then cs else cs.reverse) false
  -- expression.cpp:359-362
  | .repl .., _ => M.err
  -- expression.cpp:389-393
  | .merge a b, dir => do let cs ← pnN c (.merge a b); c.exec (.pn cs []) dir
  -- expression.cpp:412-415: the direction is not used
  | .transp t, _ => do
    permute (fun r => r.mulC t)
    let _ ← prove v c false
  -- expression.cpp:422-425
  | .sym s, dir => execSymbol c s dir
  -- expression.cpp:511-515
  | .assign s e, dir => if dir < 0 then M.err else defineDyn s e
  -- expression.cpp:524-535
  | .appendAssign s e, dir =>
    if dir < 0 then M.err
    else do
      let x ← lookup s
      let l ← c.str x
      let r ← c.str e
      defineDyn s (.str (l ++ r) {})
  -- expression.cpp:544-548
  | .immAssign s e, dir =>
    if dir < 0 then M.err
    else do
      let x ← c.eval e
      defineDyn s x
  -- expression.cpp:589-592
  | .endproof, _ => disableProving
  -- expression.cpp:866-885: the count is converted to int
  | .mult a b, dir => do
    let t ← bothInt c a b
    if t then
      if dir < 0 then M.err else do let _ ← intN v c (.mult a b)
    else do
      let ta ← c.type a
      if ta = .integer then do
        let k ← c.int a
        c.exec (.rep (i32 k) b) dir
      else do
        let tb ← c.type b
        if tb = .integer then do
          let k ← c.int b
          c.exec (.rep (i32 k) a) dir
        else M.err
  -- expression.cpp:985-993
  | .ifMatch test t f, dir =>
    if dir < 0 then M.err
    else do
      let b ← condition c test
      if b then c.exec t dir
      else match f with
        | some f => c.exec f dir
        | none => pure ()
  -- expression.cpp:1009-1013
  | .exc t, dir => if dir < 0 then M.err else M.exc t
  -- expression.cpp:1028-1032
  | .call nm args, dir =>
    if dir < 0 then M.err else do let x ← evalCall c nm args; c.exec x dir
  -- expression.cpp:1080-1083, 1090-1093, functions.cpp:33-41
  | .save nm, _ => saveSymbol nm
  | .array _, _ => M.err
  | .fn _, _ => M.err
  -- expr_base.cpp:125-127
  | .append a b, _ => do let t ← strN v c (.append a b); output t false
  -- expr_base.cpp:96-101
  | e@(.isproving), dir | e@(.isrounds), dir | e@(.pattern ..), dir | e@(.opaque _), dir | e@(.defined _), dir
  | e@(.bool _), dir | e@(.and ..), dir | e@(.or ..), dir | e@(.not _), dir | e@(.cmp ..), dir =>
    if dir < 0 then M.err else do let _ ← boolN v c e
  -- expr_base.cpp:107-113
  | e@(.bells), dir | e@(.length), dir | e@(.int _), dir | e@(.add ..), dir | e@(.mod ..), dir | e@(.div ..), dir
  | e@(.incr ..), dir =>
    if dir < 0 then M.err else do let _ ← intN v c e

/-- The functions of `expression` (expr_base.cpp:134-189), which count the nodes; `type` and `name` do not
(expr_base.h:134-137). -/
def step (n : Nat) : Calls where
  exec e dir := do tick v; execN v c n e dir
  eval e := do tick v; evalN v c e
  bool e := do tick v; boolN v c e
  int e := do tick v; intN v c e
  str e := do tick v; strN v c e
  strNl e := do tick v; strNlN v c e
  pn e := do tick v; pnN c e
  mus e := do tick v; musN c e
  arr e := do tick v; arrN c e
  call e args := do tick v; callN v c e args
  repl e m := do tick v; replN c e m
  type e := typeN c e
  name e := nameN c e

end

/-- The interpreter with a budget of `n` nested calls. -/
def calls (v : Env) : Nat → Calls
  | 0 => .none
  | n + 1 => step v (calls v n) n

/-! ## A proof -/

/-- `proof_context( ectx )` (proof_context.cpp:49-73): it throws if the number of bells is -1 (never: the
default is 0) or if rounds is on too many bells. -/
def startC (v : Env) (e : ECtx) : M Unit := fun s =>
  if v.bells = -1 ∨ (v.rounds.length : Int) > v.bells then .err { s with e := e }
  else
    match Row.mulC (Row.roundsC v.bells.toNat) v.rounds with
    | .ok r =>
      .ok () { e := e, dsyms := fun _ => none, r := r, lastRow := [], maxLength := v.maxLength,
               p := Prover.make v.extents .null, proving := true, parent := none, mus := v.music, live := true,
               silent := v.everyrowOnly || v.filter || decide (v.quiet ≥ 2), rung := [], ended := none }
    | .throw _ => .err { s with e := e }
    | .ub => .ub
    | .timeout => .fuel

/-- `proof_context::proof_state` (proof_context.h:91). -/
inductive ProofState
  | rounds | notround | isfalse
  deriving DecidableEq, Repr

/-- `proof_context::state` (proof_context.cpp:233-240). -/
def St.state (v : Env) (s : St) : ProofState :=
  if s.p.truth then
    (if (if s.proving then s.r else s.lastRow) = v.rounds then .rounds else .notround)
  else .isfalse

/-- What a `prove` statement does at the end: which of the final symbols it executes, that a `break` ended it, or that
an abort did. -/
inductive Verdict
  | true | tooshort | notround | false | broken | aborted
  deriving DecidableEq, Repr

/-- Whether `prove_stmt::execute` calls `set_failure` (statement.cpp:107-138). -/
def Verdict.fails : Verdict → Bool
  | .true | .broken => Bool.false
  | _ => Bool.true

/-- `proof_context::execute_final_symbol` (proof_context.cpp:197-202). -/
def execFinal (c : Calls) (n : Str) : M Unit := M.catchAll () (execSymbol c n)

/-- The body of the proof (statement.cpp:101-106). -/
def proofBody (c : Calls) (x : Expr) : M Unit := do
  execSymbol c "start".toList
  c.exec x 1
  execSymbol c "finish".toList

/-- `prove_stmt::execute` (statement.cpp:86-145) from the construction of the `proof_context` on, without the
messages of verbose mode; `minLength` is `expected_length().first`. -/
def proveC (v : Env) (minLength n : Nat) (x : Expr) (e : ECtx) : M Verdict := do
  startC v e
  fun s =>
    match proofBody (calls v n) x s with
    | .ok _ s =>
      match s.state v with
      | .rounds =>
        if minLength ≠ 0 ∧ s.p.size < minLength then
          M.bind (execFinal (calls v n) "tooshort".toList) (fun _ => M.pure .tooshort) s
        else
          let s := if v.quiet ≠ 0 then { s with silent := true } else s
          M.bind (execFinal (calls v n) "true".toList) (fun _ => M.pure .true) s
      | .notround => M.bind (execFinal (calls v n) "notround".toList) (fun _ => M.pure .notround) s
      | .isfalse => M.bind (execFinal (calls v n) "false".toList) (fun _ => M.pure .false) s
    | .abort s => M.bind (execFinal (calls v n) "abort".toList) (fun _ => M.pure .aborted) s
    | .brk s => .ok .broken s
    | .err s => .err s
    | .ub => .ub
    | .fuel => .fuel

end Ringing.Siril
