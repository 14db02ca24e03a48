import Verif.Spec.Music
import Verif.Spec.Library
/-
Specification vocabulary for the named and scored music strings.
-/
namespace Spec

/-- The pattern for a row. -/
def rowPattern (r : List Nat) : List Tok := r.map .bell

/-- A number behind perhaps some white space and a sign, and then `-runs`. -/
def RunLength (t : List Char) (v : Int) : Prop :=
  ∃ a sg ds, t = a ++ sg ++ ds ++ "-runs".toList ∧ (∀ c ∈ a, Space c) ∧ ds ≠ [] ∧ (∀ c ∈ ds, Digit c) ∧
    (((sg = [] ∨ sg = ['+']) ∧ v = number ds) ∨ (sg = ['-'] ∧ v = -(number ds : Int)))

/-- The patterns for the runs of `n` out of `b` bells, first those going up and then those going down, with `pre`
before and `suf` behind them. -/
def runPatterns (b n : Nat) (pre suf : List Tok) : List (List Tok) :=
  ((List.range (b + 1 - n)).map fun i => pre ++ ((List.range n).map fun j => .bell (i + j)) ++ suf) ++
  ((List.range (b + 1 - n)).map fun i => pre ++ ((List.range n).reverse.map fun j => .bell (i + j)) ++ suf)

/-- The patterns for the CRUs: two of the bells 4, 5 and 6 and behind them all the others in order. -/
def cruPatterns (b : Nat) : List (List Tok) :=
  if b ≥ 6 then [(3, 4), (3, 5), (4, 3), (4, 5), (5, 3), (5, 4)].map fun x =>
    .star :: .bell x.1 :: .bell x.2 :: (List.range (b - 6)).map fun k => .bell (6 + k) else []

/-- The music names on `b` bells and their patterns. -/
inductive NamedMusic (b : Nat) : List Char → List (List Tok) → Prop
  | rounds : NamedMusic b "rounds".toList [rowPattern (List.range b)]
  | queens : NamedMusic b "queens".toList
      [rowPattern ((List.range b).filter (· % 2 = 0) ++ (List.range b).filter (· % 2 = 1))]
  | kings : NamedMusic b "kings".toList
      [rowPattern (((List.range b).filter (· % 2 = 0)).reverse ++ (List.range b).filter (· % 2 = 1))]
  | tittums {r : List Nat} : r.length = b → (∀ i, 2 * i < b → r[2 * i]? = some i) →
      (∀ i, 2 * i + 1 < b → r[2 * i + 1]? = some ((b + 1) / 2 + i)) → NamedMusic b "tittums".toList [rowPattern r]
  | reverse : NamedMusic b "reverse-rounds".toList [rowPattern (List.range b).reverse]
  | crus : NamedMusic b "CRUs".toList (cruPatterns b)
  | front {t : List Char} {n : Nat} : RunLength t n → 3 ≤ n → n ≤ b → NamedMusic b ("front-".toList ++ t) (runPatterns b n [] [.star])
  | back {t : List Char} {n : Nat} : RunLength t n → 3 ≤ n → n ≤ b → NamedMusic b ("back-".toList ++ t) (runPatterns b n [.star] [])
  | anywhere {t : List Char} {n : Nat} : RunLength t n → 3 ≤ n → n ≤ b → NamedMusic b t (runPatterns b n [.star] [.star])

/-- A digit or a minus. -/
def ScoreChar (c : Char) : Prop := Digit c ∨ c = '-'

/-- The score at handstroke, the score at backstroke and the pattern that a string stands for: `5:pattern`,
`5,7:pattern`, or a pattern alone, which scores 1. -/
inductive Scored : List Char → Int → Int → List Char → Prop
  | both {w pat : List Char} {v : Int} : w ≠ [] → (∀ c ∈ w, ScoreChar c) → LeadingInt w v → 2 < (w ++ ':' :: pat).length →
      Scored (w ++ ':' :: pat) v v pat
  | each {w w' pat : List Char} {v v' : Int} : w ≠ [] → (∀ c ∈ w, ScoreChar c) → (∀ c ∈ w', ScoreChar c) → LeadingInt w v →
      LeadingInt w' v' → Scored (w ++ ',' :: (w' ++ ':' :: pat)) v v' pat
  | alone {w pat : List Char} : (∀ c ∈ w, ScoreChar c) → (∀ c, pat.head? = some c → ¬ ScoreChar c ∧ (w ≠ [] → c ≠ ':' ∧ c ≠ ',')) →
      Scored (w ++ pat) 1 1 (w ++ pat)
  | short {pat : List Char} : pat.length ≤ 2 → Scored pat 1 1 pat

end Spec
