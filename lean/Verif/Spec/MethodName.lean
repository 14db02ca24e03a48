import Verif.Spec.Method
import Mathlib.Data.Nat.Digits.Defs
/-
Specification vocabulary for the names of methods and the codes of lead heads.
-/
namespace Spec

/-- Words with one space between them; empty ones are left out. -/
def phrase (l : List (List Char)) : List Char := [' '].intercalate (l.filter (· ≠ []))

/-- The decimal digits of a positive number, most significant first. -/
def digits (n : Nat) : List Char := ((Nat.digits 10 n).map Nat.digitChar).reverse

/-- The code of the `k`-th plain bob lead head of order `o`, with a place made in 2nds or in 1sts at the lead
end.  From the front the letters are a, b, c, c1, c2, ... and from the back f, e, d, d1, d2, ... for odd orders
(g, h, j, ... and m, l, k, ... with 1sts place), p, p1, ... and q, q1, ... (r and s) for even ones. -/
def leadHeadCode (o k : Nat) (seconds : Bool) : List Char :=
  let fromBack := decide (o < 2 * k)
  let m := if fromBack then o - k else k
  if o % 2 = 1 then
    let letters := if fromBack then (if seconds then ['f', 'e', 'd'] else ['m', 'l', 'k']) else (if seconds then ['a', 'b', 'c'] else ['g', 'h', 'j'])
    if m ≤ 3 then [letters.getD (m - 1) 'z'] else letters.getD 2 'z' :: digits (m - 3)
  else
    (if fromBack then (if seconds then 'q' else 's') else (if seconds then 'p' else 'r')) :: (if m = 1 then [] else digits (m - 1))

/-- The word for a class, numbered 0 unknown, 1 principle, 2 bob, 3 place, 4 treble bob, 5 surprise, 6 delight,
7 treble place, 8 alliance, 9 hybrid, 10 slow course. -/
def classWord (c : Nat) : String :=
  match c with
  | 2 => "Bob" | 3 => "Place" | 4 => "Treble Bob" | 5 => "Surprise" | 6 => "Delight" | 7 => "Treble Place"
  | 8 => "Alliance" | 9 => "Hybrid" | 10 => "Slow Course" | _ => ""

/-- The words of a name that come from the class.  From 2019 on hybrid is not part of the name. -/
def classWords (differential little : Bool) (c : Nat) (year : Int) : List (List Char) :=
  [if differential then "Differential".toList else [], if little then "Little".toList else [],
   if year ≥ 2019 ∧ c = 9 then [] else (classWord c).toList]

/-- The names of the stages from 3 to 22 bells; other stages are written as numbers. -/
def stageWord (n : Nat) : List Char :=
  match n with
  | 0 => ['0']
  | 3 => "Singles".toList | 4 => "Minimus".toList | 5 => "Doubles".toList | 6 => "Minor".toList
  | 7 => "Triples".toList | 8 => "Major".toList | 9 => "Caters".toList | 10 => "Royal".toList
  | 11 => "Cinques".toList | 12 => "Maximus".toList | 13 => "Sextuples".toList | 14 => "Fourteen".toList
  | 15 => "Septuples".toList | 16 => "Sixteen".toList | 17 => "Octuples".toList | 18 => "Eighteen".toList
  | 19 => "Nonuples".toList | 20 => "Twenty".toList | 21 => "Decuples".toList | 22 => "Twenty-two".toList
  | n => digits n

/-- The methods whose class is not part of their name. -/
def Classless (name : List Char) (b : Nat) : Prop :=
  name ∈ ["Grandsire", "Reverse Grandsire", "Double Grandsire", "Little Grandsire"].map String.toList ∨
  (b > 5 ∧ name ∈ ["Union", "Double Union", "Reverse Union"].map String.toList)

end Spec
