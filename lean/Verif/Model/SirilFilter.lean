import Verif.Model.SirilMain
import Verif.Model.Library
/-
Model of `gsiril --filter` (apps/gsiril/main.cpp:247-297).

Simplifications: the standard input is its contents, the program comes from `-e` or from a file that can be read; if the value of the payload cannot
be computed, what has been printed of the line is left out; error messages are counted.
-/
namespace Ringing.Siril

/-- The arguments for `--filter` (prog_args.cpp:47-49, 249-268). -/
structure FArgs where
  lhSymbol : Str := "lh".toList
  leadSymbol : Str := "m".toList
  leadIncludesLh : Bool := false
  payloadSymbol : Str := []

/-- `execution_context::evaluate_string_var` (execution_context.cpp:162-166). -/
def strVar (A : RArgs) (x : Str) (w : World) : Ex Str :=
  inContext A w fun c => setSilent true >>= fun _ => fun s => match w.e.syms x with | some e => c.str e s | none => .err s

/-- The definitions for a method (main.cpp:269-286). -/
def defineMethod (F : FArgs) (m : Lib.Named) (payload : Option Str) (w : World) : World :=
  let w := if F.lhSymbol ≠ [] then w.defineSym F.lhSymbol (.pn m.m.ch.getLast?.toList []) else w
  let lead := if F.leadIncludesLh then m.m.ch else m.m.ch.dropLast
  let w := if F.leadSymbol ≠ [] then w.defineSym F.leadSymbol (.pn lead m.name) else w
  if F.payloadSymbol ≠ [] then (match payload with | some p => w.defineSym F.payloadSymbol (.str p {}) | none => w) else w

/-- The line printed for a method (main.cpp:288-295).  An entry without payload has an empty one. -/
def printMethod (A : RArgs) (F : FArgs) (m : Lib.Named) (payload : Option Str) (w : World) : Ex Unit :=
  (Ex.lift w (m.m.formatC (Method.M_DASH ||| Method.M_SYMMETRY ||| Method.M_PLUS))).bind fun f w =>
  (if F.payloadSymbol ≠ [] then strVar A F.payloadSymbol w else .ok (payload.getD []) w).bind fun p w =>
  .ok () { w with e := { w.e with out := w.e.out ++ (f ++ '\t' :: (p ++ ['\n'])) } }

/-- The body of the loop of `filter` (main.cpp:251-296). -/
def filterOne (A : RArgs) (F : FArgs) (depth n : Nat) (text : Str) (i : Lib.View) (w : World) : Ex Unit :=
  match i.meth with
  | .throw _ => .ok () { w with reports := w.reports + 1 }
  | .ub => .ub
  | .timeout => .fuel
  | .ok m =>
    if m.m.ch = [] then .ok () { w with reports := w.reports + 1 }
    else
      (proveStream A depth n (some text) (defineMethod F m i.payload w)).bind fun good w =>
      if good then printMethod A F m i.payload w else .ok () w

/-- The loop of `filter` (main.cpp:250); the first number bounds its passes. -/
def filterLoop (A : RArgs) (F : FArgs) (depth n : Nat) (text : Str) : Nat → Lib.LiteEntry → Lib.Lite → World → Ex Unit
  | 0, _, _, _ => .fuel
  | k + 1, e, l, w =>
    (Ex.lift w (Lib.lite.read e l)).bind fun r w =>
    if r.1 then (filterOne A F depth n text (Lib.lite.view r.2.1) w).bind fun _ w => filterLoop A F depth n text k r.2.1 r.2.2 w
    else .ok () w

/-- `filter` (main.cpp:247-297), reading the methods from `input`; `b` is the number of bells of the arguments. -/
def filterC (A : RArgs) (F : FArgs) (depth n k : Nat) (text : Str) (b : Int) (input : Str) (w : World) : Ex Unit :=
  let l := Lib.lite.start (Lib.Lite.ofStream b ⟨input, false, false⟩ false)
  filterLoop A F depth n text k (Lib.lite.fresh l) l w

/-- `main` (main.cpp:300-333) with `--filter`. -/
def gsirilFilterC (A : RArgs) (I : IArgs) (F : FArgs) (depth n k : Nat) (v : Env) (text input : Str) : Ex Nat :=
  match ((contextC I v).bind fun _ w => initialise A I depth w).bind fun _ w => filterC A F depth n k text v.bells input w with
  | .ok _ w => .ok 0 w
  | .err w => .ok 2 { w with reports := w.reports + 1 }
  | .escape w => .ok 2 { w with reports := w.reports + 1 }
  | .exit c w => .ok c w
  | .ub => .ub
  | .fuel => .fuel

end Ringing.Siril
