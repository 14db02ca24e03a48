import Verif.Spec.Library
import Verif.Spec.PlaceNotation
import Verif.Model.Bell
/-
How bells can be written in the place notation and the patterns of gsiril.
-/
namespace Ringing.Siril.Literal
open Spec

/-- A bell expression, when there are `bells` bells: `N`, `N - number` or a number, with white space. -/
def Denotes (bells : Int) (s : List Char) (k : Int) : Prop :=
  (∃ a b, White a ∧ White b ∧ s = a ++ 'N' :: b ∧ k = bells) ∨
  (∃ a b t i, White a ∧ White b ∧ s = a ++ 'N' :: b ++ '-' :: t ∧ IsInt t i ∧ k = bells - i) ∨
  IsInt s k

/-- How the bell `k` is written (counting from one, and modulo 256; see `C09` for `Bell.write`). -/
def bellText (k : Int) : List Char := Bell.write ((k - 1) % 256).toNat

/-- `t` is `s` with the bells for the expressions in braces. -/
inductive Unbraced (bells : Int) : List Char → List Char → Prop
  | nil : Unbraced bells [] []
  | char {c : Char} {s t : List Char} : c ≠ '{' → Unbraced bells s t → Unbraced bells (c :: s) (c :: t)
  | expr {e s t : List Char} {k : Int} : (∀ c ∈ e, c ≠ '{' ∧ c ≠ '}') → Denotes bells e k → Unbraced bells s t →
      Unbraced bells ('{' :: (e ++ '}' :: s)) (bellText k ++ t)

/-- There are two dots with something before and after them. -/
def HasRange (s : List Char) : Prop := ∃ u p d v, s = u ++ p :: '.' :: '.' :: d :: v

/-- The bells between `a` and `b` (which count from zero), from the one to the other. -/
inductive Between : (a b : Nat) → List Char → Prop
  | same {a} : Between a a []
  | next {a} : Between a (a + 1) []
  | prev {a} : Between (a + 1) a []
  | up {a b t} : a + 1 < b → Between (a + 1) b t → Between a b (Bell.write (a + 1) ++ t)
  | down {a b t} : b + 1 < a → Between (a - 1) b t → Between a b (Bell.write (a - 1) ++ t)

/-- `t` is `s` with the bells for the dots of the ranges, from the left. -/
inductive Unranged : List Char → List Char → Prop
  | plain {s : List Char} : ¬ HasRange s → Unranged s s
  | range {u v t m : List Char} {p d : Char} {a b : Nat} : ¬ HasRange (u ++ [p, '.', '.']) → Bell.readChar p = .ok a → Bell.readChar d = .ok b →
      Between a b m → Unranged (d :: v) t → Unranged (u ++ p :: '.' :: '.' :: d :: v) (u ++ p :: (m ++ t))

/-- The text `s` stands for the text `t` without braces and ranges. -/
def Stands (bells : Int) (s t : List Char) : Prop := ∃ u, Unbraced bells s u ∧ Unranged u t

end Ringing.Siril.Literal
