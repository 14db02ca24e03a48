import Verif.Model.RowCalcParse
/-!
The grammar of row expressions: `-` binds least, then `*`, `/` and `\`, then `^`; the first two group to the left and
`^` to the right.  An exponent of one character, or that is no row, or after `+`, is an integer.
-/
namespace Ringing
namespace RowCalc

/-- What is written. -/
inductive Item where
  | diff (e : T)
  | mult (e : T)
  | power (e : T)
  | prim (e : T)
  | expo (e : T)
  | list (es : Ts)

/-- The tokens spell the item. -/
inductive Spells (mk : List Char → Option Row) : Item → List Tok → Prop where
  | diffUp {e ts} : Spells mk (.mult e) ts → Spells mk (.diff e) ts
  | diff {a b ta tb} : Spells mk (.diff a) ta → Spells mk (.mult b) tb → Spells mk (.diff (.diff a b)) (ta ++ .minus :: tb)
  | multUp {e ts} : Spells mk (.power e) ts → Spells mk (.mult e) ts
  | mult {a b ta tb} (o : Op) : Spells mk (.mult a) ta → Spells mk (.power b) tb → Spells mk (.mult (.mult o a b)) (ta ++ .op o :: tb)
  | powerUp {e ts} : Spells mk (.prim e) ts → Spells mk (.power e) ts
  | power {a b ta tb} : Spells mk (.prim a) ta → Spells mk (.expo b) tb → Spells mk (.power (.exp a b)) (ta ++ .power :: tb)
  | int {s} : s.length = 1 ∨ mk s = none → Spells mk (.expo (.int false s)) [.num s]
  | plus {s} : Spells mk (.expo (.int false s)) [.plus, .num s]
  | expo {e ts} : Spells mk (.power e) ts → (∀ s, ts = [.num s] → s.length ≠ 1) → Spells mk (.expo e) ts
  | num {s r} : mk s = some r → Spells mk (.prim (.row r)) [.num s]
  | lit {s r} : mk s = some r → Spells mk (.prim (.row r)) [.lit s]
  | exec {s} : Spells mk (.prim (.exec s)) [.exec s]
  | read {s} : Spells mk (.prim (.read s)) [.read s]
  | paren {e ts} : Spells mk (.diff e) ts → Spells mk (.prim e) (.opn .paren :: (ts ++ [.cls .paren]))
  | set {es ts} : Spells mk (.list es) ts → Spells mk (.prim (.set es)) (.opn .brace :: (ts ++ [.cls .brace]))
  | group {es ts} : Spells mk (.list es) ts → Spells mk (.prim (.group es)) (.opn .angle :: (ts ++ [.cls .angle]))
  | one {e ts} : Spells mk (.diff e) ts → Spells mk (.list (.cons e .nil)) ts
  | more {e es ts tl} : Spells mk (.diff e) ts → Spells mk (.list es) tl → Spells mk (.list (.cons e es)) (ts ++ .comma :: tl)

end RowCalc
end Ringing
