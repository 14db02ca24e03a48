import Verif.Spec.SirilMain
import Verif.Spec.Library
import Verif.Spec.PlaceNotation
import Verif.Spec.Prover
import Verif.Spec.Siril
import Verif.Model.SirilFilter
/-
What `gsiril --filter` is for: of a list of methods those are printed for which a touch is true.  Of the model the names of the arguments and the
way methods are printed (`formatC`, which C17 is about) are used.
-/
namespace Ringing.Siril.Running
open Ringing.Siril.Grammar

/-- The place notation `pn` says these changes on `n` bells. -/
def Notation (n : Nat) (pn : Str) (cs : List Change) : Prop := ∃ w t, Spec.White w ∧ pn = w ++ t ∧ Spec.PNText n t cs

/-- What is defined for a method with the changes `cs ++ [c]` and a payload: by default `lh` is the change `c` and `m` the changes `cs`. -/
def methodSymbols (F : FArgs) (cs : List Change) (c : Change) (payload : Str) : List (Str × Expr) :=
  (if F.lhSymbol = [] then [] else [(F.lhSymbol, .pn [c] [])]) ++
  (if F.leadSymbol = [] then [] else [(F.leadSymbol, .pn (if F.leadIncludesLh then cs ++ [c] else cs) [])]) ++
  (if F.payloadSymbol = [] then [] else [(F.payloadSymbol, .str payload {})])

/-- The way a method is printed. -/
def compact (n : Nat) (cs : List Change) (f : Str) : Prop :=
  Method.formatC ⟨n, cs⟩ (Method.M_DASH ||| Method.M_SYMMETRY ||| Method.M_PLUS) = .ok f

/-- Of the entries of a library on `n` bells, those whose changes have the property `P` are printed in order, each as a line with its changes and its
payload; those that cannot be read or have no changes are left out, with `bad` error messages. -/
inductive Filtered (n : Nat) (P : List Change → Prop) : (es : List (Int × Str × Str)) → (out : Str) → (bad : Nat) → Prop
  | nil : Filtered n P [] [] 0
  | bad {b pn payload es out k} : (∀ cs, Notation n pn cs → cs = []) → Filtered n P es out k → Filtered n P ((b, pn, payload) :: es) out (k + 1)
  | drop {b pn payload cs es out k} : Notation n pn cs → cs ≠ [] → ¬ P cs → Filtered n P es out k → Filtered n P ((b, pn, payload) :: es) out k
  | keep {b pn payload cs f es out k} : Notation n pn cs → cs ≠ [] → P cs → compact n cs f → Filtered n P es out k →
      Filtered n P ((b, pn, payload) :: es) (f ++ '\t' :: payload ++ '\n' :: out) k

/-- A program that defines symbols and proves something. -/
structure Touch (A : RArgs) (ts : List Tok) (n : Nat) (ds : List (Str × Expr)) (x : Expr) : Prop where
  names : ∀ d ∈ ds, ¬ StandardName d.1
  reads : ∃ t1 t2, Definitions A n ts ds t1 ∧ Begins A n t1 (.prove x) t2 ∧ Over A n t2

/-- No row occurs more often than there are extents, and the last row is rounds. -/
def TrueTouch (extents : Int) (n : Nat) (cs : List Change) : Prop :=
  Spec.NoRowTooOften extents (Spec.Siril.rowsFrom (List.range n) (cs.map (·.swaps))) ∧
    Spec.Siril.lastOf (List.range n) (Spec.Siril.rowsFrom (List.range n) (cs.map (·.swaps))) = List.range n

end Ringing.Siril.Running
