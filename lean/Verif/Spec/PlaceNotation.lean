import Verif.Model.PlaceNotation
/-
The grammar of place notation, independent of the parser.  What a change text means is given by the
constructor of `change` from a string (`Change.ofStringC`), which C11 describes.
-/
namespace Spec
open Ringing

/-- White space. -/
def White (w : List Char) : Prop := ∀ c ∈ w, Bell.isSpace c = true

/-- An optional separator `d`, surrounded by optional white space. -/
def Sep (d : Char) (w : List Char) : Prop := White w ∨ ∃ a b, White a ∧ White b ∧ w = a ++ d :: b

/-- A string of bell symbols: letters and digits other than `x` and `X`, or bracketed bells. -/
inductive PlaceText : List Char → Prop
  | nil : PlaceText []
  | sym {c : Char} {t : List Char} : PN.isAlnum c = true → c ≠ 'X' → c ≠ 'x' → PlaceText t →
      PlaceText (c :: t)
  | brace {b t : List Char} : (∀ x ∈ b, x ≠ '{' ∧ x ≠ '}') → PlaceText t →
      PlaceText ('{' :: (b ++ '}' :: t))

/-- The three ways of writing the cross change. -/
def IsCross (c : Char) : Prop := c = 'X' ∨ c = 'x' ∨ c = '-'

/-- The text of a sequence of changes on `n` bells, each followed by an optional dot.  Two
consecutive changes given by their places must be separated. -/
inductive BlockText (n : Nat) : List Char → List Change → Prop
  | nil : BlockText n [] []
  | cross {x : Char} {c : Change} {w s : List Char} {cs : List Change} : IsCross x →
      Change.ofStringC n ['X'] = .ok c → Sep '.' w → BlockText n s cs →
      BlockText n (x :: (w ++ s)) (c :: cs)
  | place {t : List Char} {c : Change} {w s : List Char} {cs : List Change} : t ≠ [] → PlaceText t →
      Change.ofStringC n t = .ok c → Sep '.' w →
      (w = [] → s = [] ∨ ∃ x s', s = x :: s' ∧ IsCross x) → BlockText n s cs →
      BlockText n (t ++ (w ++ s)) (c :: cs)

/-- A block: its prefix (`&` for a symmetrical block, `+` or nothing otherwise), its changes. -/
inductive BlockPN (n : Nat) : List Char → List Change → Prop
  | plain {s : List Char} {cs : List Change} : BlockText n s cs → BlockPN n s cs
  | plus {w s : List Char} {cs : List Change} : Sep '.' w → BlockText n s cs →
      BlockPN n ('+' :: (w ++ s)) cs
  | sym {w s : List Char} {cs : List Change} : Sep '.' w → BlockText n s cs →
      BlockPN n ('&' :: (w ++ s)) (cs ++ cs.dropLast.reverse)

/-- Place notation: blocks separated by commas. -/
inductive PNText (n : Nat) : List Char → List Change → Prop
  | nil : PNText n [] []
  | one {s : List Char} {cs : List Change} : BlockPN n s cs → PNText n s cs
  | more {s w u : List Char} {cs ds : List Change} : BlockPN n s cs → White w → PNText n u ds →
      PNText n (s ++ ',' :: (w ++ u)) (cs ++ ds)

end Spec
