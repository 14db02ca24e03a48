import Verif.Model.PlaceNotation
import Verif.Model.RowCycles
import Verif.Model.NamedRows
/-
Model of class `method` (ringing/method.h, ringing/method.cpp), except its name, `fullname` and
`classname`.
-/
namespace Ringing

/-- `for (i = lo; i < lo + k; ++i) if (!f(i)) return false; return true;` -/
def allN (f : Nat → Out Bool) : (k lo : Nat) → Out Bool
  | 0, _ => .ok true
  | k + 1, lo => f lo >>= fun b => if b then allN f k (lo + 1) else .ok false

/-- `for (i = lo; i < hi; ++i) if (!f(i)) return false; return true;` -/
def allUp (lo hi : Nat) (f : Nat → Out Bool) : Out Bool := allN f (hi - lo) lo

/-- `for (i = lo; i < lo + k; ++i) if (f(i)) return i; return -1;` -/
def findN (f : Nat → Out Bool) : (k lo : Nat) → Out Int
  | 0, _ => .ok (-1)
  | k + 1, lo => f lo >>= fun b => if b then .ok lo else findN f k (lo + 1)

/-- `method` (method.h:55, 150): the number of bells and the changes.  The name is not modelled. -/
structure Method where
  b : Nat
  ch : List Change
  deriving DecidableEq, Repr

namespace Method

/-- All changes of the method are well-formed and on its number of bells. -/
def WF (m : Method) : Prop := m.b ≤ 255 ∧ ∀ c ∈ m.ch, c.WF ∧ c.n = m.b

instance (m : Method) : Decidable (WF m) := inferInstanceAs (Decidable (_ ∧ _))

/-- `method::length` (method.h:108). -/
abbrev length (m : Method) : Nat := m.ch.length

/-- `(*this)[i]`: undefined behaviour out of range. -/
def at' (m : Method) (i : Nat) : Out Change := vget m.ch i

/-- `method::method(const char*, int, ...)` (method.cpp:117-122). -/
def ofCStrC (pn : List Char) (b : Nat) : Out Method := do
  let ch ← PN.ofCStr b pn
  pure ⟨b, ch⟩

/-- `method::method(const string&, int, ...)` (method.cpp:124-129). -/
def ofStringC (pn : List Char) (b : Nat) : Out Method := do
  let ch ← PN.ofString b pn
  pure ⟨b, ch⟩

/-- The loop of `method::lh` (method.cpp:135). -/
def applyAllC : List Change → Row → Out Row
  | [], r => .ok r
  | c :: cs, r => Row.applyC r c >>= applyAllC cs

/-- `method::lh` (method.cpp:131-137). -/
def lhC (m : Method) : Out Row := applyAllC m.ch (Row.roundsC m.b)

/-- `method::leads` (method.cpp:139-142). -/
def leadsC (m : Method) : Out Nat := lhC m >>= Row.orderC

/-- `method::is_palindromic_about(int)` (method.cpp:172-180), for `0 ≤ i`; `i = -1` (from `issym` on
an empty method) is not needed because the loop is then empty, see `issymC`. -/
def isPalindromicAboutC (m : Method) (i : Nat) : Out Bool :=
  let n := m.length
  allUp 1 (if n % 2 = 0 then n / 2 else n / 2 + 1) fun j => do
    let c ← at' m ((i + j) % n)
    let d ← at' m ((i + n - j) % n)
    pure (Change.eq c d)

/-- `method::issym()` (method.cpp:184-189).  For an empty method `n/2-1` is `-1`, but the loop of
`is_palindromic_about` is empty; the natural number subtraction gives 0 with the same effect. -/
def issymC (m : Method) : Out Bool :=
  if m.length % 2 = 1 then .ok false else isPalindromicAboutC m (m.length / 2 - 1)

/-- `method::symmetry_point()` (method.cpp:542-551). -/
def symmetryPointC (m : Method) : Out Int :=
  if m.length % 2 ≠ 0 then .ok (-1) else findN (isPalindromicAboutC m) (m.length / 2) 0

/-- `method::ispalindromic()` (method.cpp:681-684). -/
def ispalindromicC (m : Method) : Out Bool := do
  let p ← symmetryPointC m
  pure (decide (p ≠ -1))

/-- `method::isdouble` (method.cpp:194-200). -/
def isdoubleC (m : Method) : Out Bool :=
  if m.length % 2 = 1 then .ok false
  else allUp 0 (m.length / 2) fun i => do
    let c ← at' m i
    let d ← at' m (m.length / 2 + i)
    pure (Change.eq c d.reverse)

/-- `method::huntbells` (method.cpp:203-210). -/
def huntbellsC (m : Method) : Out Nat := do
  let r ← lhC m
  forUp 0 m.b 0 fun n i => do
    let x ← vget r i
    pure (if x = i then n + 1 else n)

/-- The path loops of the form `for (j = ...; ...) b *= (*this)[...]`: the position of a bell after
the first `k` changes. -/
def traceC (m : Method) (b k : Nat) : Out Nat :=
  forUp 0 k b fun b j => do
    let c ← at' m j
    pure (c.pos b)

/-- The loop of `method::is_palindromic_about(bell, int)` (method.cpp:225-232): `none` if it returned
false, else the bell's position. -/
def palLoop (m : Method) (i : Nat) : (k j : Nat) → (b : Nat) → Out (Option Nat)
  | 0, _, b => .ok (some b)
  | k + 1, j, b => do
    let c1 ← at' m ((i + j) % m.length)
    let c2 ← at' m ((i + m.length - j) % m.length)
    if c1.pos b ≠ c2.pos b then .ok none else palLoop m i k (j + 1) (c1.pos b)

/-- `method::is_palindromic_about(bell, int)` (method.cpp:212-239) for `0 ≤ i`; the remainder by a
zero length is undefined. -/
def isPalindromicAboutBellC (m : Method) (b i : Nat) : Out Bool :=
  let n := m.length
  if n = 0 then .ub
  else do
    let b ← traceC m b ((i + 1) % n)
    let c ← at' m i
    if c.pos b ≠ b then .ok false
    else do
      let h := if n % 2 = 0 then n / 2 else n / 2 + 1
      let r ← palLoop m i (h - 1) 1 b
      match r with
      | none => .ok false
      | some b => do
        let c ← at' m (i + h)
        pure (decide (c.pos b = b))

/-- `method::issym(bell)` (method.cpp:242-247). -/
def issymBellC (m : Method) (b : Nat) : Out Bool :=
  if m.length % 2 = 1 then .ok false else isPalindromicAboutBellC m b (m.length / 2 - 1)

/-- `method::symmetry_point(bell)` (method.cpp:553-562): the assertion requires an even length. -/
def symmetryPointBellC (m : Method) (b : Nat) : Out Int :=
  if m.length % 2 ≠ 0 then .ub else findN (isPalindromicAboutBellC m b) (m.length / 2) 0

/-- `findswap(j)` for an `int` argument, converted to a `bell` (bell.h:80): `-1` becomes 255. -/
def findswapInt (c : Change) (j : Int) : Bool := c.findswap (j % 256).toNat

/-- The loop of `method::isplain` (method.cpp:255-263) from index `i` on: `none` if it returned
false, else the final `j`, `dir` and `dirchanges`. -/
def plainLoop : List Change → (j : Int) → (dir : Bool) → (dc : Nat) → Option (Int × Bool × Nat)
  | [], j, dir, dc => some (j, dir, dc)
  | c :: cs, j, dir, dc =>
    let d : Int := if dir then 1 else 0
    if findswapInt c (j - 1 + d) then none
    else if findswapInt c (j - d) then plainLoop cs (if dir then j - 1 else j + 1) dir dc
    else plainLoop cs j (!dir) (dc + 1)

/-- `method::isplain` (method.cpp:250-265). -/
def isplain (m : Method) (b : Nat) : Bool :=
  match plainLoop m.ch b (b % 2 = 1) 0 with
  | none => false
  | some (j, _, dc) => decide (j = b) && decide (dc = 2)

/-- The loop of `method::hasdodges` (method.cpp:275-279): `k` iterations from `i` on. -/
def dodgeLoop (m : Method) : (k i : Nat) → (j j1 : Nat) → Out Bool
  | 0, _, _, _ => .ok false
  | k + 1, i, j, j1 =>
    if m.length = 0 then .ub
    else do
      let c ← at' m (i % m.length)
      let j2 := j1
      let j1 := j
      let j := c.pos j
      if j = j2 ∧ j ≠ j1 then .ok true else dodgeLoop m k (i + 1) j j1

/-- `method::hasdodges` (method.cpp:268-281); `bell(-1)` is 255. -/
def hasdodgesC (m : Method) (b : Nat) : Out Bool := dodgeLoop m (m.length + 1) 0 b 255

/-- The loop of `method::hasplaces` (method.cpp:288-293); `bells()-1` is an `int`. -/
def placesLoop (n : Nat) : List Change → (j : Nat) → Bool
  | [], _ => false
  | c :: cs, j =>
    if c.pos j = j ∧ c.pos j > 0 ∧ c.pos j + 1 < n then true else placesLoop n cs (c.pos j)

/-- `method::hasplaces` (method.cpp:284-295). -/
def hasplaces (m : Method) (b : Nat) : Bool := placesLoop m.b m.ch b

/-- The length of the run of changes with a place at `p` at the start of a list
(method.cpp:657-661, 666-670). -/
def runLen (p : Nat) : List Change → Nat
  | [] => 0
  | c :: cs => if c.findplace p then runLen p cs + 1 else 0

/-- The value `n` of a run starting at index `i` (method.cpp:655-671): 2, plus the run to the end,
plus, if that reached the end, the run from the beginning up to `i`. -/
def runAt (m : Method) (i p : Nat) : Nat :=
  let k := runLen p (m.ch.drop i)
  if k = (m.ch.drop i).length then 2 + k + runLen p (m.ch.take i) else 2 + k

/-- `method::maxblows` (method.cpp:642-679). -/
def maxblows (m : Method) : Int :=
  let maxn := (List.range m.length).foldl (fun maxn i =>
    (List.range m.b).foldl (fun maxn p =>
      if (m.ch.getD i ⟨0, []⟩).findplace p then
        if i ≠ 0 ∧ (m.ch.getD (i - 1) ⟨0, []⟩).findplace p then maxn
        else max maxn (runAt m i p)
      else maxn) maxn) 0
  (maxn : Int) - 1

/-! ### Formatting -/

/-- `flags & bit` for the flags of `m_format` (method.h:131-141). -/
def has (flags bit : Nat) : Bool := flags &&& bit ≠ 0

/-- `method::M_DOTS` (method.h:132). -/
def M_DOTS : Nat := 0o1
/-- `method::M_EXTERNAL` (method.h:133). -/
def M_EXTERNAL : Nat := 0o2
/-- `method::M_UCROSS` (method.h:134). -/
def M_UCROSS : Nat := 0o4
/-- `method::M_LCROSS` (method.h:135). -/
def M_LCROSS : Nat := 0o10
/-- `method::M_DASH` (method.h:136). -/
def M_DASH : Nat := 0o20
/-- `method::M_SYMMETRY` (method.h:137). -/
def M_SYMMETRY : Nat := 0o40
/-- `method::M_FULL_SYMMETRY` (method.h:138). -/
def M_FULL_SYMMETRY : Nat := 0o140
/-- `method::M_OMIT_LH` (method.h:139). -/
def M_OMIT_LH : Nat := 0o200
/-- `method::M_PLUS` (method.h:140). -/
def M_PLUS : Nat := 0o400

/-- The cross printed by `do_single_compressed_pn` (method.cpp:574-577). -/
def crossChar (flags : Nat) : Char :=
  if has flags M_UCROSS then 'X' else if has flags M_LCROSS then 'x'
  else if has flags M_DASH then '-' else 'X'

/-- Removal of external places (method.cpp:585-593). -/
def stripExternal (n : Nat) (p : List Char) : List Char :=
  if p.length > 1 then
    let p := if p.head? = some (Bell.toChar 0) then p.tail else p
    let p := if p ≠ [] ∧ p.getLast? = some (Bell.toChar (n - 1)) then p.dropLast else p
    if p = [] then [Bell.toChar 0] else p
  else p

/-- The text of a change with places in `do_single_compressed_pn` (method.cpp:583-593). -/
def changeText (flags : Nat) (c : Change) : List Char :=
  let p := Change.print c .upper
  if has flags M_EXTERNAL then p else stripExternal c.n p

/-- `do_single_compressed_pn` and the loop of `do_compressed_section` (method.cpp:566-610), on the
list of the changes of the section: `dot` is `might_need_dot`. -/
def section' (flags : Nat) : (cs : List Change) → (dot first : Bool) → List Char
  | [], _, _ => []
  | c :: cs, dot, first =>
    if Change.countPlaces c = 0 then
      (if has flags M_DOTS ∧ ¬ first then ['.'] else []) ++ [crossChar flags] ++ section' flags cs false false
    else
      (if (dot ∨ has flags M_DOTS) ∧ ¬ first then ['.'] else []) ++ changeText flags c ++
        section' flags cs true false

/-- `do_compressed_section` (method.cpp:603-610): undefined behaviour if the range is not inside the
method. -/
def sectionC (m : Method) (lo hi flags : Nat) : Out (List Char) :=
  if lo < hi ∧ m.length < hi then .ub else .ok (section' flags ((m.ch.take hi).drop lo) false true)

/-- The condition of `method::format` (method.cpp:618-622): `some sym` if the symmetric form is
used. -/
def formatSym (m : Method) (flags : Nat) : Out (Option Nat) :=
  if has flags M_SYMMETRY ∧ m.length > 2 then do
    let s ← issymC m
    if s then pure (some (m.length / 2 - 1))
    else if flags &&& M_FULL_SYMMETRY = M_FULL_SYMMETRY ∧ ¬ has flags M_OMIT_LH then do
      let p ← symmetryPointC m
      pure (if p ≠ -1 then some p.toNat else none)
    else pure none
  else pure none

/-- `method::format` (method.cpp:614-639).  On an empty method with `M_OMIT_LH` the unsigned
`size() - 1` wraps round and the section reads outside the method. -/
def formatC (m : Method) (flags : Nat) : Out (List Char) := do
  let n := m.length
  match ← formatSym m flags with
  | some sym => do
    let p0 := if sym ≠ 0 then ['&'] else if has flags M_PLUS then ['+'] else []
    let s0 ← sectionC m 0 (sym + 1) flags
    if has flags M_OMIT_LH then pure (p0 ++ s0)
    else do
      let p1 := if sym ≠ n / 2 - 1 then ['&'] else if has flags M_PLUS then ['+'] else []
      let s1 ← sectionC m (2 * sym + 1) (n / 2 + sym + 1) flags
      pure (p0 ++ s0 ++ [','] ++ p1 ++ s1)
  | none => do
    let p0 := if has flags M_PLUS then ['+'] else []
    let hi := if has flags M_OMIT_LH then (if n = 0 then 2 ^ 32 - 1 else n - 1) else n
    let s0 ← sectionC m 0 hi flags
    pure (p0 ++ s0)

end Method
end Ringing
