import Verif.Spec.Row
import Mathlib.Data.List.Forall2
/-
Specification vocabulary for music patterns.
-/
namespace Spec

/-- The elements of a pattern: a bell, `?`, a set of alternatives `[...]`, and `*`. -/
inductive Tok
  | bell (b : Nat)
  | any
  | set (l : List Nat)
  | star
  deriving DecidableEq, Repr

/-- The character `c` stands for bell `b` (the treble is 0): the symbols in order, in either case; `I` may be
written for `1` and `O` for `0`. -/
def BellChar (c : Char) (b : Nat) : Prop :=
  "1234567890ETABCDFGHJKLMNPQRSUVWYZ".toList[b]? = some c.toUpper ∨ (c.toUpper = 'I' ∧ b = 0) ∨ (c.toUpper = 'O' ∧ b = 9)

/-- The text of a pattern. -/
inductive Spells : List Tok → List Char → Prop
  | nil : Spells [] []
  | bell {c b p s} : BellChar c b → Spells p s → Spells (.bell b :: p) (c :: s)
  | any {p s} : Spells p s → Spells (.any :: p) ('?' :: s)
  | set {cs l p s} : List.Forall₂ BellChar cs l → Spells p s → Spells (.set l :: p) ('[' :: (cs ++ ']' :: s))
  | star {p s} : Spells p s → Spells (.star :: p) ('*' :: s)

/-- A sequence of bells is one that the pattern describes. -/
def Matches : List Tok → List Nat → Prop
  | [], r => r = []
  | .bell b :: p, r => ∃ t, r = b :: t ∧ Matches p t
  | .any :: p, r => ∃ x t, r = x :: t ∧ Matches p t
  | .set l :: p, r => ∃ x t, r = x :: t ∧ x ∈ l ∧ Matches p t
  | .star :: p, r => ∃ a t, r = a ++ t ∧ Matches p t

/-- A pattern without a star has one at its end. -/
def full (p : List Tok) : List Tok := if Tok.star ∈ p then p else p ++ [.star]

/-- The ways to read a row by a star followed by something that is read by `f`: the star stands for the first
bells. -/
def starReadings (f : List Nat → List (List Nat)) : List Nat → List (List Nat)
  | [] => f []
  | x :: t => f (x :: t) ++ (starReadings f t).map (x :: ·)

/-- The different ways in which a pattern describes a sequence of bells, for each the bells that `?` and `*`
stand for.  A bell listed twice in a set counts twice. -/
def readings : List Tok → List Nat → List (List Nat)
  | [], r => if r = [] then [[]] else []
  | .bell b :: p, r => match r with
    | [] => []
    | x :: t => if x = b then readings p t else []
  | .any :: p, r => match r with
    | [] => []
    | x :: t => (readings p t).map (x :: ·)
  | .set l :: p, r => match r with
    | [] => []
    | x :: t => l.flatMap fun b => if x = b then readings p t else []
  | .star :: p, r => starReadings (readings p) r

/-- The last star of a pattern, if something comes after it, replaced by `?*`. -/
def lastNonempty : List Tok → List Tok
  | [] => []
  | .star :: p => if Tok.star ∈ p then .star :: lastNonempty p else if p = [] then [.star] else .any :: .star :: p
  | t :: p => t :: lastNonempty p

/-- The number of characters of a pattern. -/
def width : List Tok → Nat
  | [] => 0
  | .set l :: p => l.length + 2 + width p
  | _ :: p => 1 + width p

/-- The number of tokens that stand for one bell. -/
def ones (p : List Tok) : Nat := (p.filter (· ≠ Tok.star)).length

/-- The condition under which all matches are found: if a star is not the last one, and `k` characters with
`m` bells, question marks and sets come after it, then there are at most `k + m + 3` bells.  If the pattern
ends with something else than a star, `m` is one more. -/
def Window (b : Nat) (p : List Tok) : Prop :=
  ∀ z, (Tok.star :: z) <:+ p → Tok.star ∈ z → b ≤ width z + 3 + ones (lastNonempty z)

/-- The symbol of a bell. -/
def symbol (b : Nat) : Char := "1234567890ETABCDFGHJKLMNPQRSUVWYZ".toList.getD b '*'

/-- The usual text of a pattern: capitals and no `I` for `1` or `O` for `0`. -/
def text : List Tok → List Char
  | [] => []
  | .bell b :: p => symbol b :: text p
  | .any :: p => '?' :: text p
  | .set l :: p => '[' :: (l.map symbol ++ ']' :: text p)
  | .star :: p => '*' :: text p

/-- The bells named in a pattern. -/
def named : List Tok → List Nat
  | [] => []
  | .bell b :: p => b :: named p
  | .set l :: p => l ++ named p
  | .any :: p => named p
  | .star :: p => named p

/-- The bells that stand for themselves in a pattern. -/
def fixed (p : List Tok) : List Nat := p.filterMap fun | .bell b => some b | _ => none

/-- A bell standing for itself is not a member of a set before it. -/
def Later (p : List Tok) : Prop := p.Pairwise fun t u => ∀ l x, t = .set l → u = .bell x → x ∉ l

/-- Between two stars there is a bell standing for itself, unless one star comes right after the other. -/
def Anchored (p : List Tok) : Prop :=
  ∀ y, (Tok.star :: y) <:+ p → Tok.star ∈ y → y.head? = some .star ∨ ∃ y1 x y2, y = y1 ++ .bell x :: y2 ∧ Tok.star ∉ y1

/-- The rows on `b` bells that a pattern describes. -/
def described (b : Nat) (p : List Tok) : Set (List Nat) := {r | r.Perm (List.range b) ∧ Matches (full p) r}

end Spec
