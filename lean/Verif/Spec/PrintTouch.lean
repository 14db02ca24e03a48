import Verif.Model.PrintTouch
/-! What the printed line says. -/
namespace Ringing
namespace PrintTouch

/-- The leads of the touch, with their repeats. -/
def leads (es : List (Int × List Change)) : List (List Change) := es.flatMap fun e => List.replicate e.1.toNat e.2

/-- The name of the call made at the end of a lead, the first if several have this change, or of a plain lead. -/
def nameOf (A : Args) (cs : List Change) : List Char :=
  (((A.calls.zip A.names).find? fun p => cs.getLast? = some p.1).map Prod.snd).getD A.plain

/-- The touch, rung `k` times from rounds, comes round. -/
def Round (n : Nat) (cs : List Change) (k : Nat) : Prop :=
  Row.applyAll (Row.rounds n) (List.replicate k cs).flatten = Row.rounds n

/-- The number of times it takes to come round. -/
def Parts (n : Nat) (cs : List Change) (o : Nat) : Prop := 0 < o ∧ ∀ k, Round n cs k ↔ o ∣ k

end PrintTouch
end Ringing
