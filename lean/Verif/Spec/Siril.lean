import Verif.Spec.Prover
import Verif.Model.Change
/-
What a `prove` statement of gsiril means: the vocabulary of the theorems of Props/Siril*.lean.
-/
namespace Spec.Siril
open Ringing

/-- The last of some rows, or the row before them if there are none. -/
def lastOf (r0 : List Nat) (rows : List (List Nat)) : List Nat := rows.getLast?.getD r0

/-- Each row is the one before it (the first: `r0`) with a change applied, or with a transposition. -/
def Linked (r0 : List Nat) : List (List Nat) → Prop
  | [] => True
  | r :: rows => ((∃ ch, Row.applyC r0 ch = .ok r) ∨ ∃ t, Row.mulC r0 t = .ok r) ∧ Linked r rows

end Spec.Siril
