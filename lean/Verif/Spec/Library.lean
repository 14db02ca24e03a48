import Mathlib.Data.Nat.Digits.Defs
/-
Specification vocabulary for method libraries.
-/
namespace Spec

/-- The lines of a text.  The last one need not be ended by a newline if it is not empty. -/
inductive Lines : List Char → List (List Char) → Prop
  | nil : Lines [] []
  | last {l : List Char} : l ≠ [] → '\n' ∉ l → Lines l [l]
  | cons {l t : List Char} {ls : List (List Char)} : '\n' ∉ l → Lines t ls → Lines (l ++ '\n' :: t) (l :: ls)

/-- A space or a tab. -/
def Gap (c : Char) : Prop := c = ' ' ∨ c = '\t'

/-- A space, a tab or the end of a line. -/
def Blank (c : Char) : Prop := c = ' ' ∨ c = '\t' ∨ c = '\r' ∨ c = '\n'

instance (c : Char) : Decidable (Gap c) := inferInstanceAs (Decidable (_ ∨ _))
instance (c : Char) : Decidable (Blank c) := inferInstanceAs (Decidable (_ ∨ _))

/-- White space. -/
def Space (c : Char) : Prop := c = ' ' ∨ c = '\t' ∨ c = '\n' ∨ c = '\x0b' ∨ c = '\x0c' ∨ c = '\r'

/-- A decimal digit. -/
def Digit (c : Char) : Prop := '0' ≤ c ∧ c ≤ '9'

/-- The number written with some decimal digits. -/
def number (ds : List Char) : Nat := Nat.ofDigits 10 (ds.reverse.map fun c => c.toNat - '0'.toNat)

/-- The text is the number `v`, with an optional sign and white space around it, and `v` is a 32-bit integer. -/
def IsInt (s : List Char) (v : Int) : Prop :=
  ∃ a sg ds b, s = a ++ sg ++ ds ++ b ∧ (∀ c ∈ a, Space c) ∧ (∀ c ∈ b, Space c) ∧ ds ≠ [] ∧ (∀ c ∈ ds, Digit c) ∧
    ((sg = [] ∧ v = number ds) ∨ (sg = ['+'] ∧ v = number ds) ∨ (sg = ['-'] ∧ v = -(number ds : Int))) ∧ -2 ^ 31 ≤ v ∧ v < 2 ^ 31

/-- `t` without the blanks at both ends is `u`. -/
def Trimmed (t u : List Char) : Prop :=
  ∃ a b, t = a ++ u ++ b ∧ (∀ c ∈ a, Blank c) ∧ (∀ c ∈ b, Blank c) ∧ (∀ c, u.head? = some c → ¬ Blank c) ∧
    (∀ c, u.getLast? = some c → ¬ Blank c)

/-- A line of a lightweight library: perhaps gaps, a word, and either nothing or a blank and more text. -/
def FirstWord (line word rest : List Char) : Prop :=
  ∃ gaps, line = gaps ++ word ++ rest ∧ (∀ c ∈ gaps, Gap c) ∧ (∀ c ∈ word, ¬ Blank c) ∧
    (∃ c, (word ++ rest).head? = some c ∧ ¬ Gap c) ∧ (∀ c, rest.head? = some c → Blank c)

/-- What a line says: perhaps a number of bells, the place notation, and a text. -/
def LiteLine (line : List Char) (bells : Option Int) (pn text : List Char) : Prop :=
  ∃ word rest, FirstWord line word rest ∧ Trimmed rest text ∧
    ((bells = none ∧ ':' ∉ word ∧ pn = word) ∨ ∃ num k, bells = some k ∧ word = num ++ ':' :: pn ∧ ':' ∉ num ∧ IsInt num k)

/-- A line with something before a colon that is not a number. -/
def BadLine (line : List Char) : Prop :=
  ∃ word rest num pn, FirstWord line word rest ∧ word = num ++ ':' :: pn ∧ ':' ∉ num ∧ ∀ k, ¬ IsInt num k

/-- A line with the given number of bells belongs to a library for `req` bells (0 for any number), and `b` is the
number of bells of the entry. -/
def Wanted (req : Int) (bells : Option Int) (b : Int) : Prop :=
  (req = 0 ∧ bells = some b ∧ b ≠ 0) ∨ (req ≠ 0 ∧ b = req ∧ (bells = none ∨ bells = some req ∨ bells = some 0))

/-- The number of bells, place notation and text of the entries of a lightweight library for `req` bells. -/
inductive LiteEntries (req : Int) : List (List Char) → List (Int × List Char × List Char) → Prop
  | nil : LiteEntries req [] []
  | blank {l : List Char} {ls : List (List Char)} {es : List (Int × List Char × List Char)} :
      (∀ c ∈ l, Gap c) → LiteEntries req ls es → LiteEntries req (l :: ls) es
  | other {l pn text : List Char} {bells : Option Int} {ls : List (List Char)} {es : List (Int × List Char × List Char)} :
      LiteLine l bells pn text → (∀ b, ¬ Wanted req bells b) → LiteEntries req ls es → LiteEntries req (l :: ls) es
  | entry {l pn text : List Char} {bells : Option Int} {b : Int} {ls : List (List Char)} {es : List (Int × List Char × List Char)} :
      LiteLine l bells pn text → Wanted req bells b → LiteEntries req ls es → LiteEntries req (l :: ls) ((b, pn, text) :: es)

/-! ### The MicroSiril format -/

/-- A letter. -/
def Letter (c : Char) : Prop := ('A' ≤ c ∧ c ≤ 'Z') ∨ ('a' ≤ c ∧ c ≤ 'z')

instance (c : Char) : Decidable (Letter c) := inferInstanceAs (Decidable (_ ∨ _))

/-- The number at the beginning of a text, after white space and a sign, or 0 if there is none, is the 32-bit
integer `v`. -/
def LeadingInt (s : List Char) (v : Int) : Prop :=
  ∃ a sg ds r, s = a ++ (sg ++ (ds ++ r)) ∧ (∀ c ∈ a, Space c) ∧ (∀ c, (sg ++ (ds ++ r)).head? = some c → ¬ Space c) ∧
    (∀ c ∈ ds, Digit c) ∧ (∀ c, r.head? = some c → ¬ Digit c) ∧
    ((sg = [] ∧ (∀ c, (ds ++ r).head? = some c → c ≠ '+' ∧ c ≠ '-') ∧ v = number ds) ∨ (sg = ['+'] ∧ v = number ds) ∨
      (sg = ['-'] ∧ v = -(number ds : Int))) ∧ -2 ^ 31 ≤ v ∧ v < 2 ^ 31

/-- What a header line does to the number of bells: behind its first space and the letters that follow there is
the new number; if there is nothing, the number does not change. -/
def HeaderBells (line : List Char) (old new : Int) : Prop :=
  (' ' ∉ line ∧ new = old) ∨ ∃ a letters rest, line = a ++ ' ' :: (letters ++ rest) ∧ ' ' ∉ a ∧ (∀ c ∈ letters, Letter c) ∧
    (∀ c, rest.head? = some c → ¬ Letter c) ∧ ((rest = [] ∧ new = old) ∨ (rest ≠ [] ∧ LeadingInt rest new))

/-- A line that belongs to a Central Council library. -/
def CCLine (line : List Char) : Prop := "Name".toList <:+: line ∧ "No.".toList <:+: line

/-- The number of bells, name, lead head code and place notation of the entries of a MicroSiril library, from a
place where the number of bells is `b`.  The first line that is no entry, header or empty line ends it. -/
inductive MsEntries : Int → List (List Char) → List (Int × List Char × List Char × List Char) → Prop
  | nil {b : Int} : MsEntries b [] []
  | blank {b : Int} {ls : List (List Char)} {es : List (Int × List Char × List Char × List Char)} :
      MsEntries b ls es → MsEntries b ([] :: ls) es
  | header {b b' : Int} {l : List Char} {ls : List (List Char)} {es : List (Int × List Char × List Char × List Char)} :
      l.head? = some '*' → HeaderBells l b b' → MsEntries b' ls es → MsEntries b (l :: ls) es
  | stop {b : Int} {l : List Char} {ls : List (List Char)} :
      l ≠ [] → l.head? ≠ some '*' → (CCLine l ∨ l.count ' ' ≠ 2) → MsEntries b (l :: ls) []
  | entry {b : Int} {l name code pn : List Char} {ls : List (List Char)} {es : List (Int × List Char × List Char × List Char)} :
      l = name ++ ' ' :: (code ++ ' ' :: pn) → ' ' ∉ name → ' ' ∉ code → ' ' ∉ pn → l.head? ≠ some '*' → ¬ CCLine l →
      MsEntries b ls es → MsEntries b (l :: ls) ((b, name, code, pn) :: es)

/-- The place notation in the usual form.  White space at the end is ignored.  With a plus sign in front it is
complete; otherwise the last change is the one in front of a final `z` of the code, or else is seconds place for
the codes that begin with `a` to `f`, `p` and `q`, and firsts place for all others. -/
def MsNotation (code pn full : List Char) : Prop :=
  ∃ body sp, pn = body ++ sp ∧ (∀ c ∈ sp, Space c) ∧ (∀ c, body.getLast? = some c → ¬ Space c) ∧
    ((body.head? = some '+' ∧ full = body) ∨ (body.head? ≠ some '+' ∧
      ((∃ places, code = places ++ ['z'] ∧ full = body ++ ',' :: places) ∨
        (code.getLast? ≠ some 'z' ∧ (∃ c, code.head? = some c ∧ c ∈ ['a', 'b', 'c', 'd', 'e', 'f', 'p', 'q']) ∧ full = body ++ [',', '2']) ∨
        (code.getLast? ≠ some 'z' ∧ (∀ c, code.head? = some c → c ∉ ['a', 'b', 'c', 'd', 'e', 'f', 'p', 'q']) ∧ full = body ++ [',', '1']))))

end Spec
