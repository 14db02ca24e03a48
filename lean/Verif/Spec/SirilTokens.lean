import Verif.Model.SirilTokens
import Verif.Spec.Library
/-
The lexical rules of gsiril: which tokens a text consists of.  Of the model only the types are used (`Tok`, `TArgs`).
-/
namespace Ringing.Siril.Lexis

def Letter (c : Char) : Prop := ('A' ≤ c ∧ c ≤ 'Z') ∨ ('a' ≤ c ∧ c ≤ 'z')
def Digit (c : Char) : Prop := '0' ≤ c ∧ c ≤ '9'
/-- Separates tokens and is no token itself. -/
def Blank (c : Char) : Prop := c = ' ' ∨ c = '\t' ∨ c = '\x0b' ∨ c = '\x0c' ∨ c = '\r'

/-- The characters with which names begin. -/
def NameStart (T : TArgs) (c : Char) : Prop := Letter c ∨ c = '_' ∨ (T.msiril = true ∧ c = '\x00')
/-- The characters of names. -/
def NamePart (T : TArgs) (c : Char) : Prop := NameStart T c ∨ Digit c ∨ (T.msiril = true ∧ c ∈ ['%', '-', '!'])

/-- The tokens of two characters. -/
def pairs : List (Char × Char × Sym) :=
  [('?', '=', .defAssign), (':', '=', .immAssign), ('.', '=', .appendAssign), ('&', '&', .logicAnd), ('|', '|', .logicOr),
   ('=', '=', .equals), ('!', '=', .notEquals), ('>', '=', .greaterEq), ('<', '=', .lessEq), ('+', '+', .increment),
   ('-', '-', .decrement), ('<', '<', .leftShift), ('>', '>', .rightShift)]

/-- The tokens of one character. -/
def singles : List (Char × Sym) :=
  [('(', .openParen), (')', .closeParen), ('{', .openBrace), ('}', .closeBrace), ('[', .openBrack), (']', .closeBrack), (':', .colon),
   (',', .comma), ('+', .plus), ('-', .minus), ('*', .times), ('/', .divide), ('%', .modulo), ('.', .append), ('=', .assignment),
   ('\n', .newLine), (';', .semicolon), ('~', .reverse), ('>', .greater), ('<', .less), ('!', .logicNot), ('&', .merge),
   ('\x1a', .ctrlZ)]

/-- The token of one character. -/
def Single (c : Char) (y : Sym) : Prop := (c, y) ∈ singles ∨ ((∀ y', (c, y') ∉ singles) ∧ y = .other)

/-- The quotes. -/
inductive Quote (T : TArgs) : Char → LitKind → Prop
  | transp : Quote T '\'' .transp
  | string : Quote T '"' .string
  | regex : T.msiril = false → Quote T '/' .regex

/-- What begins a comment. -/
def commentMark (T : TArgs) : Str := if T.msiril then ['/'] else ['/', '/']

/-- The characters of place notation outside braces. -/
def PlaceChar (c : Char) : Prop := c = '.' ∨ c = '-' ∨ Letter c ∨ Digit c

/-- The inside of braces. -/
def Inside (b : Str) : Prop := ∀ c ∈ b, c ≠ '{' ∧ c ≠ '}' ∧ c ≠ '\n'

/-- The text of place notation, with expressions in braces. -/
inductive Places : Str → Prop
  | nil : Places []
  | char {c s} : PlaceChar c → Places s → Places (c :: s)
  | braces {b s} : Inside b → Places s → Places ('{' :: b ++ '}' :: s)

/-- The first character, if there is one, does not have `p`. -/
def Stops (p : Char → Prop) (s : Str) : Prop := ∀ c r, s = c :: r → ¬ p c

/-- There is a `q` on the line. -/
def Closes (q : Char) (s : Str) : Prop := ∃ b r, s = b ++ q :: r ∧ '\n' ∉ b

/-- The word `w`, with `rest` behind it, is the token `t`. -/
inductive Word (T : TArgs) : (w rest : Str) → Tok → Prop
  | comment {b rest} : '\n' ∉ b → (∃ r, rest = '\n' :: r) → Word T (commentMark T ++ b) rest (.sym .comment)
  | quoted {q k b rest} : Quote T q k → q ∉ b → '\n' ∉ b → (k = .regex → b ≠ []) → Word T (q :: (b ++ [q])) rest (.lit k b)
  | pair {a b y rest} : (a, b, y) ∈ pairs → Word T [a, b] rest (.sym y)
  | place {c b rest} : c = '&' ∨ c = '+' → Places b → b ≠ [] → Stops (fun d => PlaceChar d ∨ d = '{') rest → Word T (c :: b) rest (.lit .pn (c :: b))
  | name {c b rest} : NameStart T c → (∀ d ∈ b, NamePart T d) → Stops (NamePart T) rest →
      Word T (c :: b) rest (.name (if T.caseless then (c :: b).map Char.toLower else c :: b))
  | number {c b rest} : Digit c → (∀ d ∈ b, Digit d) → Stops Digit rest → Word T (c :: b) rest (.num (c :: b))
  | single {c y rest} : Single c y → ¬ NameStart T c → ¬ Digit c → ¬ Blank c →
      (∀ d y', (c, d, y') ∈ pairs → Stops (· = d) rest) →
      (∀ k, Quote T c k → ¬ Closes c rest) → (T.msiril = true → c ≠ '/') →
      (c = '&' ∨ c = '+' → Stops (fun d => PlaceChar d ∨ d = '{') rest) → Word T [c] rest (.sym y)

/-- The text begins with the token `t`, and `rest` follows. -/
def First (T : TArgs) (s : Str) (t : Tok) (rest : Str) : Prop := ∃ w, s = w ++ rest ∧ Word T w rest t

/-- The text begins with place notation with a brace that is not closed before the next one or the end of the line. -/
def Bad (s : Str) : Prop :=
  ∃ c p b r, s = c :: (p ++ '{' :: (b ++ r)) ∧ (c = '&' ∨ c = '+') ∧ Places p ∧ Inside b ∧ ∃ d r', r = d :: r' ∧ (d = '{' ∨ d = '\n')

/-- The text consists of these tokens. -/
inductive Text (T : TArgs) : Str → List Tok → Prop
  | nil : Text T [] []
  | blank {c s ts} : Blank c → Text T s ts → Text T (c :: s) ts
  | token {s t rest ts} : First T s t rest → Text T rest ts → Text T s (t :: ts)

/-- These tokens are followed by something that is none. -/
inductive Stuck (T : TArgs) : Str → List Tok → Prop
  | here {s} : Bad s → Stuck T s []
  | blank {c s ts} : Blank c → Stuck T s ts → Stuck T (c :: s) ts
  | token {s t rest ts} : First T s t rest → Stuck T rest ts → Stuck T s (t :: ts)

/-- The text with the end of the last line, if that is missing. -/
def Ended (text s : Str) : Prop :=
  (s = text ∧ (text = [] ∨ ∃ l, text = l ++ ['\n'])) ∨ (s = text ++ ['\n'] ∧ text ≠ [] ∧ ¬ ∃ l, text = l ++ ['\n'])

/-- A word that is the token `t` wherever there is a blank or the end of a line behind it. -/
inductive Clean (T : TArgs) : (w : Str) → Tok → Prop
  | quoted {q k b} : Quote T q k → q ∉ b → '\n' ∉ b → (k = .regex → b ≠ []) → Clean T (q :: (b ++ [q])) (.lit k b)
  | pair {a b y} : (a, b, y) ∈ pairs → Clean T [a, b] (.sym y)
  | place {c b} : c = '&' ∨ c = '+' → Places b → b ≠ [] → Clean T (c :: b) (.lit .pn (c :: b))
  | name {c b} : NameStart T c → (∀ d ∈ b, NamePart T d) → Clean T (c :: b) (.name (if T.caseless then (c :: b).map Char.toLower else c :: b))
  | number {c b} : Digit c → (∀ d ∈ b, Digit d) → Clean T (c :: b) (.num (c :: b))
  | single {c y} : (c, y) ∈ singles → c ≠ '/' → c ≠ '\n' → Clean T [c] (.sym y)

/-- A line written as words, each with blanks behind it. -/
def written (gap : Str) (items : List (Str × Tok × Str)) : Str := gap ++ items.flatMap fun i => i.1 ++ i.2.2

end Ringing.Siril.Lexis
