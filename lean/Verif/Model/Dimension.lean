import Verif.Model.MethodName
/-
Model of lengths with a unit (ringing/dimension.h, ringing/dimension.cpp).  A C string is the list of its characters before the
first null character; `isspace` and `isdigit` are those of the C locale; overflow of an `int` is undefined.  The exception
`bad_format` is modelled as `invalidArgument`.  `in_points` and `set_float` are not modelled (floating point).
-/
namespace Ringing
namespace Dim
open Bell

/-- `dimension::units` (dimension.h:50-52). -/
inductive Units | points | inches | cm | mm
  deriving DecidableEq, Repr

/-- `dimension` (dimension.h:54-55). -/
structure Dimension where
  n : Int
  d : Int
  u : Units
  deriving DecidableEq, Repr

/-- An `int`. -/
def chk (v : Int) : Out Int := if v < -2 ^ 31 ∨ 2 ^ 31 ≤ v then .ub else .ok v

/-- `unit_names` (dimension.cpp:40-51). -/
def unitNames : List (List Char × Units) :=
  [(['p', 't'], .points), (['p', 'o', 'i', 'n', 't', 's'], .points), (['p', 'o', 'i', 'n', 't'], .points), (['i', 'n'], .inches), (['"'], .inches),
    (['i', 'n', 'c', 'h', 'e', 's'], .inches), (['i', 'n', 'c', 'h'], .inches), (['c', 'm'], .cm), (['m', 'm'], .mm)]

/-- `unit_strings` (dimension.cpp:36). -/
def unitString : Units → List Char
  | .points => ['p', 't'] | .inches => ['i', 'n'] | .cm => ['c', 'm'] | .mm => ['m', 'm']

/-- The loop of `reduce` (dimension.cpp:56). -/
def gcdC (a b : Int) : Out Int :=
  if b = 0 then .ok a else if a = -2 ^ 31 ∧ b = -1 then .ub else gcdC b (a.tmod b)
termination_by b.natAbs
decreasing_by
  rename_i h _
  rw [Int.natAbs_tmod]
  exact Nat.mod_lt _ (Int.natAbs_pos.2 h)

/-- The division of two `int`s. -/
def divC (a b : Int) : Out Int := if b = 0 ∨ (a = -2 ^ 31 ∧ b = -1) then .ub else .ok (a.tdiv b)

/-- `dimension::reduce` (dimension.cpp:53-59). -/
def reduceC (x : Dimension) : Out Dimension :=
  gcdC x.n x.d >>= fun a => divC x.n a >>= fun n => divC x.d a >>= fun d =>
  if d < 0 then chk (-d) >>= fun d => chk (-n) >>= fun n => .ok ⟨n, d, x.u⟩ else .ok ⟨n, d, x.u⟩

/-- `operator<<(ostream&, dimension const&)` (dimension.cpp:68-80). -/
def writeC (x : Dimension) : Out (List Char) :=
  if x.d = 0 then .ok []
  else if x.n = 0 then .ok ['0']
  else if x.n = -2 ^ 31 ∧ x.d = -1 then .ub
  else
    let r := x.n.tmod x.d
    let q := (x.n - r).tdiv x.d
    .ok ((if q ≠ 0 then decimalInt q else []) ++ (if q ≠ 0 ∧ r ≠ 0 then [' '] else []) ++
      (if r ≠ 0 then decimalInt r.natAbs ++ '/' :: decimalInt x.d else []) ++ ' ' :: unitString x.u)

/-- `while(isdigit(*s)) a = 10*a + (*s++ - '0')` (dimension.cpp:98, 107, 113, 122). -/
def digitsC : List Char → Int → Out (Int × List Char)
  | [], a => .ok (a, [])
  | c :: s, a => if isDigit c then chk (10 * a) >>= fun a => chk (a + digitVal c) >>= fun a => digitsC s a else .ok (a, c :: s)

/-- A number of at least one digit (dimension.cpp:96-98, 111-113, 120-122). -/
def numberC : List Char → Out (Int × List Char)
  | [] => .throw .invalidArgument
  | c :: s => if isDigit c then digitsC s (digitVal c) else .throw .invalidArgument

/-- The digits after the point (dimension.cpp:101-102). -/
def pointC : List Char → Int → Int → Out (Int × Int × List Char)
  | [], a, b => .ok (a, b, [])
  | c :: s, a, b =>
    if isDigit c then chk (10 * a) >>= fun a => chk (a + digitVal c) >>= fun a => chk (10 * b) >>= fun b => pointC s a b
    else .ok (a, b, c :: s)

/-- `dimension::read_units` (dimension.cpp:137-146). -/
def unitsC (s : List Char) : Out Units :=
  match unitNames.lookup ((s.dropWhile isSpace).takeWhile fun c => !isSpace c) with
  | some u => .ok u
  | none => .throw .invalidArgument

/-- The end of `dimension::read` (dimension.cpp:104, 116-117, 125, 128, 131). -/
def finishC (neg : Bool) (n d : Int) (s : List Char) : Out Dimension :=
  unitsC s >>= fun u => reduceC ⟨if neg then -n else n, d, u⟩

/-- A fractional part from the `/` on (dimension.cpp:109-113, 118-122). -/
def denominatorC (s : List Char) : Out (Int × List Char) := numberC (s.dropWhile isSpace)

/-- `dimension::read` after the first number (dimension.cpp:99-130). -/
def restC (neg : Bool) (a : Int) (s : List Char) : Out Dimension :=
  if s.head? = some '.' then pointC s.tail a 1 >>= fun r => finishC neg r.1 r.2.1 r.2.2
  else
    let s := s.dropWhile isSpace
    if s.head?.any isDigit then
      numberC s >>= fun r =>
      let s := r.2.dropWhile isSpace
      if s.head? ≠ some '/' then .throw .invalidArgument
      else denominatorC s.tail >>= fun r2 => unitsC r2.2 >>= fun _ => chk (a * r2.1) >>= fun x => chk (x + r.1) >>= fun x => finishC neg x r2.1 r2.2
    else if s.head? = some '/' then denominatorC s.tail >>= fun r2 => finishC neg a r2.1 r2.2
    else finishC neg a 1 s

/-- `dimension::read` (dimension.cpp:88-135). -/
def readC (s : List Char) : Out Dimension :=
  let s := s.dropWhile isSpace
  let neg := decide (s.head? = some '-')
  let s := (if neg then s.tail else s).dropWhile isSpace
  numberC s >>= fun r => restC neg r.1 r.2

/-- `operator*=` and `operator/=` (dimension.h:70, 72). -/
def mulC (x : Dimension) (i : Int) : Out Dimension := chk (x.n * i) >>= fun n => reduceC { x with n := n }
def quotC (x : Dimension) (i : Int) : Out Dimension := chk (x.d * i) >>= fun d => reduceC { x with d := d }

end Dim
end Ringing
