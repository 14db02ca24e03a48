import Verif.Model.Siril
import Verif.Spec.Change
import Verif.Spec.Row
/-
What a touch written without conditions means: its changes and its rows.
-/
namespace Spec.Siril
open Ringing Ringing.Siril

/-- A row after a change, given by the places of its swaps. -/
def rungRow (swaps : List Nat) (r : List Nat) : List Nat :=
  (List.range r.length).map fun i => bellAt r (moveTo swaps i)

/-- The rows rung with some changes after the row `r`. -/
def rowsFrom (r : List Nat) : List (List Nat) → List (List Nat)
  | [] => []
  | ss :: css => rungRow ss r :: rowsFrom (rungRow ss r) css

/-- `Expands b t star x cs`: with the definitions `t`, the expression `x` stands for the changes `cs` on at most
`b` bells.  It is made of place notation, lists, repetitions `3 x`, reversals, defined symbols and, if `star`, empty
expressions and products `3 * x`, which can be executed but have no value as place notation. -/
inductive Expands (b : Nat) (t : Str → Option Expr) (star : Prop) : Expr → List Change → Prop
  | nop : star → Expands b t star .nop []
  | pn (cs : List Change) (name : Str) : (∀ c ∈ cs, IsChange c.n c.swaps ∧ c.n ≤ b) → Expands b t star (.pn cs name) cs
  | list {x y : Expr} {xs ys : List Change} : Expands b t star x xs → Expands b t star y ys → Expands b t star (.list x y) (xs ++ ys)
  | rep (k : Nat) {x : Expr} {xs : List Change} : Expands b t star x xs →
      Expands b t star (.rep k x) (List.replicate k xs).flatten
  | times (k : Nat) {x : Expr} {xs : List Change} : star → (k : Int) < 2 ^ 31 → Expands b t star x xs →
      Expands b t star (.mult (.int k) x) (List.replicate k xs).flatten
  | rev {x : Expr} {xs : List Change} : Expands b t star x xs → Expands b t star (.rev x) xs.reverse
  | sym (n : Str) {x : Expr} {xs : List Change} : n ≠ "loop_counter".toList → t n = some x → Expands b t star x xs →
      Expands b t star (.sym n) xs

/-- The two lines printed about a touch of `n` rows, the last of them `r`. -/
def report (bellText : Nat → List Char) (n : Nat) (r : List Nat) (message : String) : List Char :=
  decimal n ++ " rows ending in ".toList ++ r.flatMap bellText ++ ['\n'] ++ message.toList ++ ['\n']

end Spec.Siril
