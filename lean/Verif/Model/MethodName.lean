import Verif.Model.MethodClass
import Mathlib.Data.Nat.Digits.Defs
/-
Model of the names of methods: `method::classname` (ringing/method.cpp:149-170), `method::stagename`
(method.cpp:414-424), `method::fullname` (method.cpp:436-457) and `method::lhcode` (method.cpp:460-539).
The static buffers are not modelled: the result of `stagename` and `lhcode` is the text at the time of the
return.
-/
namespace Ringing

/-- `%d` in `snprintf` for a number that is not negative. -/
def decimal (n : Nat) : List Char := if n = 0 then ['0'] else ((Nat.digits 10 n).map Nat.digitChar).reverse

/-- `%d` in `snprintf`. -/
def decimalInt (n : Int) : List Char := if n < 0 then '-' :: decimal n.natAbs else decimal n.natAbs

namespace Method

/-- `txt_classes` (method.cpp:68-80): the twelfth entry is a null pointer. -/
def txtClasses : List (Option String) :=
  [some "", some "", some "Bob", some "Place", some "Treble Bob", some "Surprise", some "Delight", some "Treble Place",
   some "Alliance", some "Hybrid", some "Slow Course", none]

/-- `txt_stages` (method.cpp:82-103). -/
def txtStages : List String :=
  ["Singles", "Minimus", "Doubles", "Minor", "Triples", "Major", "Caters", "Royal", "Cinques", "Maximus", "Sextuples", "Fourteen",
   "Septuples", "Sixteen", "Octuples", "Eighteen", "Nonuples", "Twenty", "Decuples", "Twenty-two"]

/-- `if (s.size()) s += " "; s += t;`. -/
def addWord (s : List Char) (t : String) : List Char := (if s ≠ [] then s ++ [' '] else s) ++ t.toList

/-- `method::classname` (method.cpp:149-170), for a `cl` that is not negative.  Dereferencing the null entry of
the table or one behind it is undefined behaviour. -/
def classnameC (cl : Nat) (year : Int) : Out (List Char) :=
  let s := if cl &&& M_DIFFERENTIAL ≠ 0 then "Differential".toList else []
  let s := if cl &&& M_LITTLE ≠ 0 then addWord s "Little" else s
  let k := if year ≥ 2019 ∧ cl &&& 15 = M_HYBRID then 0 else cl &&& 15
  match txtClasses[k]? with
  | some (some t) => .ok (if t ≠ "" then addWord s t else s)
  | _ => .ub

/-- `method::stagename` (method.cpp:414-424); the buffer has eight characters. -/
def stagename (n : Int) : List Char :=
  if 3 ≤ n ∧ n ≤ 22 then (txtStages.getD (n - 3).toNat "").toList else (decimalInt n).take 7

/-- `method::fullname` (method.cpp:436-457); the name is a member of the method.  `past` is as for
`methclass`. -/
def fullnameC (past : Out Nat) (name : List Char) (m : Method) (year : Int) : Out (List Char) :=
  methclassC past m year >>= fun cl =>
  let result := if name ≠ [] then name ++ [' '] else name
  (if name = "Grandsire".toList ∨ name = "Reverse Grandsire".toList ∨ name = "Double Grandsire".toList ∨ name = "Little Grandsire".toList then
      .ok result
    else if m.b > 5 ∧ (name = "Union".toList ∨ name = "Double Union".toList ∨ name = "Reverse Union".toList) then .ok result
    else classnameC cl year >>= fun cn => .ok (if cn ≠ [] then result ++ cn ++ [' '] else result)) >>= fun result =>
  .ok (result ++ stagename m.b)

/-- The place of the lead head code (method.cpp:480-494): 1 or 2, or 0 if there is none.  With two hunt bells
the first change is looked at, otherwise the last. -/
def lhplaceC (m : Method) (twin : Bool) : Out Nat :=
  if twin then
    at' m 0 >>= fun c => Change.ofStringC m.b ['X'] >>= fun x =>
    if Change.eq c x then .ok 1
    else at' m 0 >>= fun c => Change.ofStringC m.b ['3'] >>= fun y => .ok (if Change.eq c y then 2 else 0)
  else
    (if m.length = 0 then .ub else at' m (m.length - 1)) >>= fun c => Change.ofStringC m.b ['1'] >>= fun x =>
    if Change.eq c x then .ok 1
    else at' m (m.length - 1) >>= fun c => Change.ofStringC m.b ['1', '2'] >>= fun y => .ok (if Change.eq c y then 2 else 0)

/-- `c + d` for a character. -/
def charAdd (c : Char) (d : Nat) : Char := Char.ofNat (c.toNat + d)

/-- The text of the code (method.cpp:504-537), for `1 ≤ n < o`. -/
def codeText (lhplace n o : Nat) : List Char :=
  let m := if n > o / 2 then o - n else n
  let p := if o % 2 = 1 then 3 else 1
  let c := if o % 2 = 1 then (if m ≤ 3 then charAdd 'a' (m - 1) else 'c') else 'p'
  let num := if m > p then decimal (m - p) else []
  let c := if m ≠ n then (if o % 2 = 1 then Char.ofNat ('a'.toNat + 'f'.toNat - c.toNat) else 'q') else c
  let c :=
    if lhplace = 1 then
      if o % 2 = 1 then
        let d := charAdd c 6
        if d.toNat ≥ 'i'.toNat then charAdd d 1 else d
      else charAdd c 2
    else c
  c :: num

/-- `method::lhcode` (method.cpp:460-539).  The text has at most five characters. -/
def lhcodeC (m : Method) : Out (List Char) :=
  lhC m >>= fun lhr => Row.ispblh0C lhr >>= fun n =>
  if n = 0 then .ok ['z']
  else
    vget lhr 0 >>= fun x0 =>
    if x0 ≠ 0 then .ok ['z']
    else
      vget lhr 2 >>= fun x2 =>
      if x2 = 2 then .ok ['z']
      else
        vget lhr 1 >>= fun x1 =>
        let twin := decide (x1 = 1)
        lhplaceC m twin >>= fun lhplace =>
        let o := if twin then m.b - 2 else m.b - 1
        let n := if twin then o - n else n
        if lhplace = 0 then .ok ['z']
        else hcfC n o >>= fun h => if h > 1 then .ok ['z'] else .ok (codeText lhplace n o)

end Method
end Ringing
