import Verif.Model.SirilParser
import Verif.Spec.NamedMusic
/-
The grammar of the expressions of gsiril, as a reader of its manual would write it down: which expression a list of tokens
spells.  It uses the types of the model (tokens, expressions) and none of its functions.
-/
namespace Ringing.Siril.Grammar
open Spec (Digit number)

/-- The brackets: an opening one and the one that closes it. -/
inductive Pair : Sym → Sym → Prop
  | paren : Pair .openParen .closeParen
  | brace : Pair .openBrace .closeBrace
  | brack : Pair .openBrack .closeBrack

/-- An opening bracket. -/
def Opening (t : Tok) : Prop := ∃ o c, Pair o c ∧ t = .sym o
/-- A closing bracket. -/
def Closing (t : Tok) : Prop := ∃ o c, Pair o c ∧ t = .sym c
/-- No bracket. -/
def Plain (t : Tok) : Prop := ¬ Opening t ∧ ¬ Closing t

/-- The brackets among the tokens are matched and nested. -/
inductive Nested : List Tok → Prop
  | nil : Nested []
  | plain {t ts} : Plain t → Nested ts → Nested (t :: ts)
  | group {o c a ts} : Pair o c → Nested a → Nested ts → Nested (.sym o :: (a ++ .sym c :: ts))

open Classical in
/-- The number of brackets opened less the number of brackets closed. -/
noncomputable def depth : List Tok → Int
  | [] => 0
  | t :: ts => (if Opening t then 1 else if Closing t then -1 else 0) + depth ts

/-- No token with the property `P` stands outside all brackets. -/
def NoneOutside (P : Tok → Prop) (ts : List Tok) : Prop :=
  ∀ l t r, ts = l ++ t :: r → depth l = 0 → Plain t → ¬ P t

/-- The operators with two operands, how strongly they bind, and what they make of their operands. -/
inductive Operator : Nat → Sym → (Expr → Expr → Expr) → Prop
  | comma : Operator 1 .comma .list
  | or : Operator 2 .logicOr .or
  | and : Operator 3 .logicAnd .and
  | eq : Operator 4 .equals (.cmp · · .eq)
  | ne : Operator 4 .notEquals (.cmp · · .ne)
  | gt : Operator 4 .greater (.cmp · · .gt)
  | lt : Operator 4 .less (.cmp · · .lt)
  | ge : Operator 4 .greaterEq (.cmp · · .ge)
  | le : Operator 4 .lessEq (.cmp · · .le)
  | merge : Operator 5 .merge .merge
  | left : Operator 6 .leftShift (.repl · · false)
  | right : Operator 6 .rightShift (.repl · · true)
  | plus : Operator 7 .plus (.add · · 1)
  | minus : Operator 7 .minus (.add · · (-1))
  | times : Operator 8 .times .mult
  | append : Operator 8 .append .append
  | divide : Operator 8 .divide .div
  | modulo : Operator 8 .modulo .mod

/-- A token that is an operator with two operands or an assignment. -/
def AnyOperator (t : Tok) : Prop :=
  t = .sym .assignment ∨ t = .sym .appendAssign ∨ t = .sym .immAssign ∨ ∃ p y f, Operator p y f ∧ t = .sym y

/-- Digits that write a number that fits into an `int`. -/
def Numeral (s : Str) (v : Int) : Prop := s ≠ [] ∧ (∀ c ∈ s, Digit c) ∧ v = number s ∧ number s < 2 ^ 31

/-- The names that stand for something else than a variable. -/
inductive Keyword : Str → Expr → Prop
  | brk : Keyword "break".toList (.exc .brk)
  | rounds : Keyword "rounds".toList .isrounds
  | true : Keyword "true".toList (.bool Bool.true)
  | false : Keyword "false".toList (.bool Bool.false)
  | bells : Keyword "bells".toList .bells
  | length : Keyword "length".toList .length
  | endproof : Keyword "endproof".toList .endproof
  | proving : Keyword "proving".toList .isproving

/-- The names of operators with one operand: they are no variables and no functions. -/
def Prefix (x : Str) : Prop := x = "repeat".toList ∨ x = "echo".toList ∨ x = "save".toList

/-- Tokens that are ignored: the brackets in them match, and no operator stands outside brackets. -/
def Ignored (ts : List Tok) : Prop := Nested ts ∧ NoneOutside AnyOperator ts

/-- One of the alternatives between braces, with its tokens. -/
structure Alt where
  test : Expr
  tests : Option (List Tok)
  body : Expr
  bodys : List Tok

/-- The tokens of an alternative: `test : body`, or `body` alone. -/
def Alt.toks (a : Alt) : List Tok :=
  match a.tests with
  | some ts => ts ++ .sym .colon :: a.bodys
  | none => a.bodys

/-- The expression that tries the alternatives one after another. -/
def chain : List Alt → Option Expr
  | [] => none
  | a :: as => some (.ifMatch a.test a.body (chain as))

/-- The alternatives, each one followed by a number of semicolons. -/
def altToks : List (Alt × Nat) → List Tok
  | [] => []
  | (a, k) :: as => a.toks ++ List.replicate k (.sym .semicolon) ++ altToks as

/-- Between two alternatives there is a semicolon. -/
def Separated : List (Alt × Nat) → Prop
  | [] => True
  | [_] => True
  | (_, k) :: as => 1 ≤ k ∧ Separated as

/-- The lists of tokens with commas between them. -/
def commas : List (List Tok) → List Tok
  | [] => []
  | [ts] => ts
  | ts :: l => ts ++ .sym .comma :: commas l

/-- `ts` spells the expression `e`, and no operator in it outside brackets binds less strongly than `p`: 0 for the assignments,
1 to 8 for the operators with two operands, 9 for the rest. -/
inductive Spells (L : Readers) : Nat → Expr → List Tok → Prop
  | up {p e ts} : p < 9 → Spells L (p + 1) e ts → Spells L p e ts
  -- assignments
  | assignNothing {x} : Spells L 0 (.assign x .nop) [.name x, .sym .assignment]
  | assign {x e ts} : Spells L 0 e ts → Spells L 0 (.assign x e) (.name x :: .sym .assignment :: ts)
  | append {x e ts} : Spells L 0 e ts → Spells L 0 (.appendAssign x e) (.name x :: .sym .appendAssign :: ts)
  | immediate {x e ts} : Spells L 0 e ts → Spells L 0 (.immAssign x e) (.name x :: .sym .immAssign :: ts)
  -- two operands: what follows the operator extends as far as possible
  | binary {p y f a b l r} : Operator p y f → Spells L (p + 1) a l → Spells L p b r →
      Spells L p (f a b) (l ++ .sym y :: r)
  -- brackets
  | paren {e ts} : Spells L 0 e ts → Spells L 9 e (.sym .openParen :: (ts ++ [.sym .closeParen]))
  | array {items : List (Expr × List Tok)} {trail : Bool} :
      (∀ i ∈ items, Spells L 0 i.1 i.2) → (∀ i ∈ items, NoneOutside (· = .sym .comma) i.2) →
      (trail = true → items ≠ []) →
      Spells L 9 (.array (items.map (·.1)))
        (.sym .openBrack :: (commas (items.map (·.2)) ++ (if trail then [.sym .comma] else []) ++ [.sym .closeBrack]))
  | braces {as : List (Alt × Nat)} {e} :
      (∀ a ∈ as, ∀ ts, a.1.tests = some ts → Spells L 0 a.1.test ts) →
      (∀ a ∈ as, ∀ ts, a.1.tests = some ts → NoneOutside (· = .sym .colon) ts) →
      (∀ a ∈ as, a.1.tests = none → L.regex ['*'] = .ok a.1.test ∧ NoneOutside (· = .sym .colon) a.1.bodys) →
      (∀ a ∈ as, a.1.bodys ≠ [] → Spells L 0 a.1.body a.1.bodys) →
      (∀ a ∈ as, a.1.bodys = [] → a.1.body = .nop) →
      (∀ a ∈ as, NoneOutside (· = .sym .semicolon) a.1.toks) →
      (∀ a ∈ as.tail, a.1.toks ≠ []) →
      Separated as → chain (as.map (·.1)) = some e →
      Spells L 9 e (.sym .openBrace :: (altToks as ++ [.sym .closeBrace]))
  -- one operand
  | defined {x} : Spells L 9 (.defined x) [.name "defined".toList, .name x]
  | definedParen {x} : Spells L 9 (.defined x) [.name "defined".toList, .sym .openParen, .name x, .sym .closeParen]
  | times {s v e ts} : Numeral s v → Spells L 9 e ts → Spells L 9 (.rep v e) (.num s :: ts)
  | forever {e ts} : Spells L 9 e ts → Spells L 9 (.rep (-1) e) (.name "repeat".toList :: ts)
  | reversed {e ts} : Spells L 9 e ts → Spells L 9 (.rev e) (.sym .reverse :: ts)
  | not {e ts} : Spells L 9 e ts → Spells L 9 (.not e) (.sym .logicNot :: ts)
  | increment {x ts} : Ignored ts → Spells L 9 (.incr x 1) (.sym .increment :: .name x :: ts)
  | decrement {x ts} : Ignored ts → Spells L 9 (.incr x (-1)) (.sym .decrement :: .name x :: ts)
  | echo {s ts} : Ignored ts →
      Spells L 9 (.str s { interpolate := true, toParent := true }) (.name "echo".toList :: .lit .string s :: ts)
  | save {x ts} : Ignored ts → Spells L 9 (.save x) (.name "save".toList :: .name x :: ts)
  -- calls of functions
  | call {x} {items : List (Expr × List Tok)} : ¬ Prefix x →
      (x = "defined".toList → ∀ y, items.map (·.2) ≠ [[.name y]]) →
      (∀ i ∈ items, Spells L 0 i.1 i.2) → (∀ i ∈ items, NoneOutside (· = .sym .comma) i.2) →
      Spells L 9 (.call x (items.map (·.1)))
        (.name x :: .sym .openParen :: (commas (items.map (·.2)) ++ [.sym .closeParen]))
  -- single tokens
  | keyword {x e} : Keyword x e → Spells L 9 e [.name x]
  | var {x} : (¬ ∃ e, Keyword x e) → ¬ Prefix x → Spells L 9 (.sym x) [.name x]
  | string {s} : Spells L 9 (.str s { interpolate := true }) [.lit .string s]
  | pn {s e} : L.pn s = .ok e → Spells L 9 e [.lit .pn s]
  | transp {s e} : L.transp s = .ok e → Spells L 9 e [.lit .transp s]
  | regex {s e} : L.regex s = .ok e → Spells L 9 e [.lit .regex s]
  | number {s v} : Numeral s v → Spells L 9 (.int v) [.num s]

/-- The numbers among the tokens are small: what the tokeniser makes of digits, below 2 ^ 31. -/
def SmallNumbers (ts : List Tok) : Prop := ∀ s, Tok.num s ∈ ts → ∃ v, Numeral s v

/-- A token after which `make_expr` ignores tokens. -/
def Careless (t : Tok) : Prop :=
  t = .sym .increment ∨ t = .sym .decrement ∨ t = .name "echo".toList ∨ t = .name "save".toList

end Ringing.Siril.Grammar
