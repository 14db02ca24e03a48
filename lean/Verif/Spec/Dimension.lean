import Verif.Model.Dimension
import Verif.Spec.Library
/-
The lengths written with a unit: the forms of numbers `dimension::read` accepts and the fractions they stand for.
-/
namespace Ringing
namespace Dim
open Spec

/-- Some decimal digits. -/
def Num (A : List Char) : Prop := A ≠ [] ∧ ∀ c ∈ A, Digit c

/-- White space. -/
def Blanks (w : List Char) : Prop := ∀ c ∈ w, Space c

/-- The text stands for the fraction `p / q`. -/
inductive Form : List Char → Nat → Nat → Prop
  | whole {A} : Num A → Form A (number A) 1
  | decimal {A B} : Num A → (∀ c ∈ B, Digit c) → Form (A ++ '.' :: B) (number (A ++ B)) (10 ^ B.length)
  | fraction {A B w1 w2} : Num A → Num B → Blanks w1 → Blanks w2 → Form (A ++ (w1 ++ '/' :: (w2 ++ B))) (number A) (number B)
  | mixed {A B C w1 w2 w3} : Num A → Num B → Num C → Blanks w1 → w1 ≠ [] → Blanks w2 → Blanks w3 →
      Form (A ++ (w1 ++ (B ++ (w2 ++ '/' :: (w3 ++ C))))) (number A * number C + number B) (number C)

/-- The names of a unit. -/
def namesOf : Units → List (List Char)
  | .points => [['p', 't'], ['p', 'o', 'i', 'n', 't'], ['p', 'o', 'i', 'n', 't', 's']]
  | .inches => [['"'], ['i', 'n'], ['i', 'n', 'c', 'h'], ['i', 'n', 'c', 'h', 'e', 's']]
  | .cm => [['c', 'm']]
  | .mm => [['m', 'm']]

/-- The value is `v / w` in lowest terms. -/
def Lowest (x : Dimension) (v w : Int) : Prop := 0 < x.d ∧ Int.gcd x.n x.d = 1 ∧ x.n * w = v * x.d

end Dim
end Ringing
