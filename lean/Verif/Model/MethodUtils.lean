import Verif.Model.Method
/-
Model of apps/methsearch/methodutils.cpp: the symmetries of a method, the constraints used while
searching and the orders and counts used in the output.
-/
namespace Ringing
namespace MethodUtils

/-- `for (i = lo; i < lo + k; ++i) if (f(i)) return true; return false;` -/
def anyN (f : Nat → Out Bool) : (k lo : Nat) → Out Bool
  | 0, _ => .ok false
  | k + 1, lo => f lo >>= fun b => if b then .ok true else anyN f k (lo + 1)

/-- `for (i = lo; i < hi; ++i) if (f(i)) return true; return false;` -/
def anyUp (lo hi : Nat) (f : Nat → Out Bool) : Out Bool := anyN f (hi - lo) lo

/-- `m[ a % n ]` with `n` the length: a remainder by zero is undefined. -/
def atMod (m : Method) (a : Nat) : Out Change :=
  if m.length = 0 then .ub else m.at' (a % m.length)

/-- The inner loops of `has_rotational_symmetry` (methodutils.cpp:156-160 with `d = 0`, 169-173 with
`d = 1`): `for (j=0; j<hi && ok; ++j) if (m[(i+j+d)%n] != m[(n+i-j)%n].reverse()) ok = false;`.
`n+i-j` is never negative since `j ≤ n/2`. -/
def rotAbout (m : Method) (d hi i : Nat) : Out Bool :=
  allUp 0 hi fun j => do
    let c ← atMod m (i + j + d)
    let e ← atMod m (m.length + i - j)
    pure (Change.eq c e.reverse)

/-- `has_rotational_symmetry` (methodutils.cpp:149-179). -/
def hasRotationalC (m : Method) : Out Bool := do
  let n := m.length
  let a ← anyUp 0 (n / 2 + 1) (rotAbout m 0 (n / 2 + 1))
  if a then pure true else anyUp 0 (n / 2 + 1) (rotAbout m 1 (n / 2))

/-- `has_conventional_symmetry` (methodutils.cpp:181-196). -/
def hasConventionalC (m : Method) : Out Bool :=
  let n := m.length
  anyUp 0 (if n % 2 = 0 then n / 2 else n) fun i =>
    allUp 1 (if n % 2 = 0 then n / 2 else n / 2 + 1) fun j => do
      let c ← atMod m (i + j)
      let d ← atMod m (i + n - j)
      pure (Change.eq c d)

/-- `has_mirror_symmetry` (methodutils.cpp:198-206). -/
def hasMirrorC (m : Method) : Out Bool :=
  allUp 0 m.length fun i => do
    let c ← m.at' i
    pure (Change.eq c c.reverse)

/-- `has_glide_symmetry` (methodutils.cpp:208-218). -/
def hasGlideC (m : Method) : Out Bool :=
  let n := m.length
  if n % 2 = 1 then .ok false
  else allUp 0 (n / 2) fun i => do
    let c ← m.at' i
    let d ← atMod m (i + n / 2)
    pure (Change.eq c d.reverse)

/-- `method_symmetry_string` (methodutils.cpp:220-228). -/
def symmetryStringC (m : Method) : Out (List Char) := do
  let p ← hasConventionalC m
  let rv := if p then ['P'] else []
  let mi ← hasMirrorC m
  let rv := if mi then rv ++ ['M'] else rv
  let g ← hasGlideC m
  let rv := if g then rv ++ ['G'] else rv
  let r ← hasRotationalC m
  pure (if r then rv ++ ['R'] else rv)

end MethodUtils
end Ringing

namespace Ringing
namespace MethodUtils

/-! ### Constraints used while searching -/

/-- `is_cyclic_le` (methodutils.cpp:41-58), for `hunts ≥ 0`.  The subtractions are on `int`s and `%`
truncates towards zero. -/
def isCyclicLeC (lh : Row) (hunts : Nat) : Out Bool := do
  let n : Int := (lh.length : Int) - hunts
  let x ← vget lh hunts
  if x = hunts then pure false
  else do
    let a ← allUp 0 hunts fun i => do
      let x ← vget lh i
      pure (decide (x = i))
    if a then
      allUp (hunts + 1) lh.length fun i => do
        let x ← vget lh i
        let y ← vget lh (i - 1)
        pure (decide (Int.tmod ((x : Int) - hunts) n = Int.tmod ((y : Int) + 1 - hunts) n))
    else pure false

/-- `a - b` on `size_t` (64 bits). -/
def subSize (a b : Nat) : Nat := (a + 2 ^ 64 - b) % 2 ^ 64

/-- The loops `for (i = div_start; i < len; ++i) { r *= m[i]; rows.push_back(r); }`
(methodutils.cpp:72-75, 125-128) over the remaining changes: the rows and the last row. -/
def divRows : List Change → Row → List Row → Out (List Row × Row)
  | [], r, rows => .ok (rows, r)
  | c :: cs, r, rows => do
    let r ← Row.applyC r c
    divRows cs r (rows ++ [r])

/-- `is_division_false` (methodutils.cpp:60-81). `reserve` has no observable effect. -/
def isDivisionFalseC (m : Method) (c : Change) (divStart curDivLen : Nat) : Out Bool := do
  let len := m.length
  if subSize len divStart < 3 ∨ subSize len divStart = subSize curDivLen 1 then pure false
  else do
    let r := Row.roundsC c.n
    let (rows, r) ← divRows (m.ch.drop divStart) r [r]
    let rc ← Row.applyC r c
    pure (decide (rc ∈ rows))

/-- The inner loop of `is_too_many_places` (methodutils.cpp:90-94): the final `count`; `fuel` is the
number of iterations left, `size_t(m.length()) + 2 - count`. -/
def placesRun (m : Method) (i stopoff : Nat) : (fuel count : Nat) → Out Nat
  | 0, count => .ok count
  | fuel + 1, count => do
    let o := m.length + 1 - count
    if o = stopoff then pure count
    else do
      let c ← m.at' o
      if c.findplace i then placesRun m i stopoff fuel (count + 1) else pure count

/-- `is_too_many_places` (methodutils.cpp:83-101). -/
def isTooManyPlacesC (m : Method) (c : Change) (max stopoff : Nat) : Out Bool :=
  anyUp 0 c.n fun i =>
    if c.findplace i then do
      let count ← placesRun m i stopoff m.length 2
      pure (decide (count > max))
    else pure false

/-- The loop of `has_consec_places` (methodutils.cpp:106-110), with `k` positions left. -/
def consecLoop (c : Change) (max : Nat) : (k i count : Nat) → Nat
  | 0, _, count => count
  | k + 1, i, count =>
    if count ≤ max then consecLoop c max k (i + 1) (if c.findplace i then count + 1 else 0) else count

/-- `has_consec_places` (methodutils.cpp:103-113). -/
def hasConsecPlaces (c : Change) (max : Nat) : Bool := decide (consecLoop c max c.n 0 0 > max)

/-- The counters of `division_bad_parity_hack` (methodutils.cpp:134-141): `even[0], even[1], odd[0],
odd[1]`, over the rows from index `i` on. -/
def parityLoop : List Row → (i e0 e1 o0 o1 : Nat) → Out (Nat × Nat × Nat × Nat)
  | [], _, e0, e1, o0, o1 => .ok (e0, e1, o0, o1)
  | r :: rs, i, e0, e1, o0, o1 => do
    let s ← Row.signC r
    if s = 1 then
      (if i % 2 = 0 then parityLoop rs (i + 1) (e0 + 1) e1 o0 o1
        else parityLoop rs (i + 1) e0 (e1 + 1) o0 o1)
    else
      (if i % 2 = 0 then parityLoop rs (i + 1) e0 e1 (o0 + 1) o1
        else parityLoop rs (i + 1) e0 e1 o0 (o1 + 1))

/-- `division_bad_parity_hack` (methodutils.cpp:115-147).  The assertion on the number of rows is
undefined behaviour if it fails. -/
def divisionBadParityC (m : Method) (c : Change) (divStart curDivLen : Nat) : Out Bool := do
  let r := Row.roundsC c.n
  let (rows, r) ← divRows (m.ch.drop divStart) r [r]
  let rc ← Row.applyC r c
  let rows := rows ++ [rc]
  if rows.length = curDivLen then do
    let (e0, e1, o0, o1) ← parityLoop rows 0 0 0 0 0
    pure (decide (e0 ≠ o0 ∨ e1 ≠ o1))
  else .ub

/-! ### Orders and counts used in the output -/

/-- `transform(s.begin(), s.end(), back_inserter(p), bell::read_char)` (methodutils.cpp:276-277). -/
def readAll : List Char → Out (List Nat)
  | [] => .ok []
  | c :: cs => do
    let b ← Bell.readChar c
    let l ← readAll cs
    pure (b :: l)

/-- `compare_changes` (methodutils.cpp:266-279).  `vector<bell>`'s `<` is lexicographic, as modelled
by `Row.lt`. -/
def compareChangesC (a b : Change) : Out Bool :=
  if a.countPlaces = 0 then .ok (decide (b.countPlaces > 0))
  else if b.countPlaces = 0 then .ok false
  else do
    let pa ← readAll (a.print .lower)
    let pb ← readAll (b.print .lower)
    pure (Row.lt pa pb)

/-- The first loop of `tenors_together_coursing_order` (methodutils.cpp:241-244): the final `b` and
`i`.  The assertion `i <= m.bells()` is undefined behaviour if it fails, which also bounds the
loop. -/
def tenorLoop (lh : Row) (bells : Nat) : (fuel : Nat) → (b i : Nat) → Out (Nat × Nat)
  | 0, _, _ => .ub
  | fuel + 1, b, i => do
    let b ← vget lh b
    if b + 2 < bells then tenorLoop lh bells fuel b (i + 1) else pure (b, i + 1)

/-- `for (j=1; j<i; ++j) cg *= lh;` (methodutils.cpp:254), `k` times. -/
def powLoop (lh : Row) : (k : Nat) → Row → Out Row
  | 0, cg => .ok cg
  | k + 1, cg => do
    let cg ← Row.mulC cg lh
    powLoop lh k cg

/-- The second loop of `tenors_together_coursing_order` (methodutils.cpp:259-261): the bells written
after the first.  It need not end. -/
def courseLoop (cg : Row) (bells : Nat) : (fuel : Nat) → (b : Nat) → Out (List Nat)
  | 0, _ => .timeout
  | fuel + 1, b => do
    let b ← vget cg b
    if b + 1 = bells then pure [b]
    else do
      let l ← courseLoop cg bells fuel b
      pure (b :: l)

/-- `tenors_together_coursing_order` (methodutils.cpp:235-264).  `bell(m.bells() - 1)` is 255 for no
bells. -/
def coursingOrderC (fuel : Nat) (m : Method) : Out (List Char) := do
  let lh ← m.lhC
  let (b, i) ← tenorLoop lh m.b m.b (if m.b = 0 then 255 else m.b - 1) 0
  if b + 1 = m.b then .throw .runtimeError
  else if b + 2 = m.b then do
    let cg ← powLoop lh (i - 1) lh
    let l ← courseLoop cg m.b fuel b
    pure ((b :: l).flatMap Bell.write)
  else .ub

/-- The condition of the loops of `find_dodges` (methodutils.cpp:402-403, 411-412). -/
def dodgeAt (incPlaces : Bool) (i : Nat) (c : Change) : Bool :=
  c.findswap i || incPlaces && c.findplace i && c.findplace (i + 1)

/-- `while (j<l && ...) ++j;` (methodutils.cpp:402-404), over the remaining changes. -/
def skipDodges (p : Change → Bool) : List Change → Nat → Nat
  | [], j => j
  | c :: cs, j => if p c then skipDodges p cs (j + 1) else j

/-- `while (k<j+l && ...) ++k;` (methodutils.cpp:411-413), with `n = j + l - k` steps left. -/
def runDodges (m : Method) (p : Change → Bool) : (n k : Nat) → Out Nat
  | 0, k => .ok k
  | n + 1, k => do
    let c ← atMod m k
    if p c then runDodges m p n (k + 1) else pure k

/-- The loop of `find_dodges` over `k` (methodutils.cpp:409-416): the numbers pushed. -/
def dodgeLoop (m : Method) (p : Change → Bool) (hi : Nat) : (fuel k : Nat) → Out (List Int)
  | 0, k => if k < hi then .timeout else .ok []
  | fuel + 1, k =>
    if k < hi then do
      let k1 ← runDodges m p (hi - k) k
      let l ← dodgeLoop m p hi fuel (k1 + 1)
      pure (if k1 > k + 1 then ((k1 : Int) - k - 1) :: l else l)
    else .ok []

/-- The body of `find_dodges` (methodutils.cpp:399-416) for one position. -/
def dodgesAt (m : Method) (p : Change → Bool) : Out (List Int) := do
  let j := skipDodges p m.ch 0
  let l ← dodgeLoop m p (j + m.length) m.length j
  pure (if j = m.length then -1 :: l else l)

/-- `find_dodges` (methodutils.cpp:393-420) from position `i` on, `k` positions left. -/
def findDodgesFrom (m : Method) (inc : Bool) : (k i : Nat) → Out (List Int)
  | 0, _ => .ok []
  | k + 1, i => do
    let a ← dodgesAt m (dodgeAt inc i)
    let l ← findDodgesFrom m inc k (i + 1)
    pure (a ++ l)

/-- `find_dodges` (methodutils.cpp:393-420). -/
def findDodges (m : Method) (inc : Bool) : Out (List Int) := findDodgesFrom m inc (m.b - 1) 0

/-- The loop of `staticity` (methodutils.cpp:426-432) on a 64-bit `unsigned long`. -/
def staticLoop : List Int → Nat → Nat
  | [], s => s
  | d :: ds, s => if d = -1 then 2 ^ 64 - 1 else staticLoop ds ((s + d.toNat) % 2 ^ 64)

/-- `staticity` (methodutils.cpp:424-433). -/
def staticityC (m : Method) : Out Nat := do
  let ds ← findDodges m true
  pure (staticLoop ds 0)

/-- `has_points` (methodutils.cpp:435-440). -/
def hasPointsC (m : Method) : Out Bool := do
  let ds ← findDodges m false
  pure (ds.any fun d => decide (d > 0) && decide (d % 2 ≠ 0))

/-- `has_unpaired_points` (methodutils.cpp:442-447). -/
def hasUnpairedPointsC (m : Method) : Out Bool := do
  let ds ← findDodges m true
  pure (ds.any fun d => decide (d > 0) && decide (d % 2 ≠ 0))

/-! ### Old lead head codes -/

/-- A row on up to nine bells from its digits, as `row("135264")`. -/
def digitRow (s : String) : Row := s.toList.map fun c => c.toNat - 49

/-- `m.back()`: undefined for a method without changes. -/
def backC (m : Method) : Out Change :=
  match m.ch.getLast? with
  | some c => .ok c
  | none => .ub

/-- The rows and codes of `old_lhcode_6` (methodutils.cpp:293-331) once the comparisons of the last
change with 12, 1 and 14 are made.  Bytes above 127 are characters of that number. -/
def lhcode6 (unicode : Bool) (lh : Row) (seconds sixths fourths : Bool) : Out String :=
  if !seconds && !sixths then
    if !fourths then .ok "?"
    else if lh = digitRow "145362" then .ok "X"
    else if lh = digitRow "162534" then .ok "Y"
    else if unicode && decide (lh = digitRow "136524") then .ok "\u00CE\u00BC"
    else if unicode && decide (lh = digitRow "152643") then .ok "\u00CE\u00B8"
    else if unicode && decide (lh = digitRow "164235") then .ok "\u00CE\u00B4"
    else if unicode && decide (lh = digitRow "146325") then .ok "\u00CE\u00A8"
    else if unicode && decide (lh = digitRow "154263") then .ok "\u00CE\u00A3"
    else if unicode && decide (lh = digitRow "135642") then .ok "\u00CE\u00BB"
    else .ok "?"
  else do
    let x ← vget lh 1
    if x = 2 then
      if lh = digitRow "135264" then pure (if seconds then "G" else "L")
      else if lh = digitRow "136245" then pure (if seconds then "Q" else "?")
      else if lh = digitRow "134625" then pure (if seconds then "?" else "W")
      else pure "?"
    else if x = 3 then
      if lh = digitRow "142635" then pure (if seconds then "K" else "O")
      else if lh = digitRow "142563" then pure (if seconds then "P" else "?")
      else if lh = digitRow "146532" then pure (if seconds then "?" else "U")
      else pure "?"
    else if x = 4 then
      if lh = digitRow "156342" then pure (if seconds then "H" else "M")
      else if lh = digitRow "154632" then pure (if seconds then "S" else "?")
      else if lh = digitRow "152364" then pure (if seconds then "?" else "T")
      else pure "?"
    else if x = 5 then
      if lh = digitRow "164523" then pure (if seconds then "J" else "N")
      else if lh = digitRow "165324" then pure (if seconds then "R" else "?")
      else if lh = digitRow "165243" then pure (if seconds then "?" else "V")
      else pure "?"
    else pure "?"

/-- `old_lhcode_6` (methodutils.cpp:283-334). -/
def oldLhcode6C (unicode : Bool) (m : Method) : Out String := do
  let lh ← m.lhC
  let c12 ← Change.ofStringC m.b "12".toList
  let back ← backC m
  let c16 ← Change.ofStringC m.b "1".toList
  let c14 ← Change.ofStringC m.b "14".toList
  lhcode6 unicode lh (Change.eq back c12) (Change.eq back c16) (Change.eq back c14)

/-- The rows and codes of `old_lhcode_5` (methodutils.cpp:344-375). -/
def lhcode5 (lh : Row) (b1 b2 b3 b4 : Bool) : Out String :=
  if !b1 && !b2 && !b3 && !b4 then .ok "?"
  else do
    let x ← vget lh 1
    if x = 1 then
      if lh = digitRow "12534" then pure (if b2 then "G" else if b3 then "T" else "?")
      else if lh = digitRow "12453" then pure (if b2 then "K" else if b3 then "S" else "?")
      else pure "?"
    else if x = 2 then
      if lh = digitRow "13524" then pure (if b2 then "A" else if b1 then "C" else "?")
      else if lh = digitRow "13542" then pure (if b4 then "Z" else "?")
      else if lh = digitRow "13425" then pure (if b2 then "H" else if b4 then "X" else "?")
      else if lh = digitRow "13452" then pure (if b1 then "F" else "?")
      else pure "?"
    else if x = 3 then
      if lh = digitRow "14253" then pure (if b2 then "B" else if b1 then "D" else "?")
      else if lh = digitRow "14235" then pure (if b2 then "J" else if b4 then "W" else "?")
      else if lh = digitRow "14352" then pure (if b3 then "U" else "?")
      else if lh = digitRow "14532" then pure (if b3 then "R" else if b4 then "N" else "?")
      else pure "?"
    else if x = 4 then
      if lh = digitRow "15234" then pure (if b1 then "E" else "?")
      else if lh = digitRow "15243" then pure (if b4 then "Y" else "?")
      else if lh = digitRow "15423" then pure (if b3 then "Q" else if b4 then "M" else "?")
      else if lh = digitRow "15324" then pure (if b3 then "V" else "?")
      else pure "?"
    else pure "?"

/-- `old_lhcode_5` (methodutils.cpp:336-377). -/
def oldLhcode5C (m : Method) : Out String := do
  let lh ← m.lhC
  let c1 ← Change.ofStringC m.b "1".toList
  let c2 ← Change.ofStringC m.b "12".toList
  let c3 ← Change.ofStringC m.b "123".toList
  let c4 ← Change.ofStringC m.b "14".toList
  let back ← backC m
  lhcode5 lh (Change.eq back c1) (Change.eq back c2) (Change.eq back c3) (Change.eq back c4)

/-- `old_lhcode` (methodutils.cpp:381-389). -/
def oldLhcodeC (unicode : Bool) (m : Method) : Out String :=
  if m.b = 6 then oldLhcode6C unicode m
  else if m.b = 5 then oldLhcode5C m
  else .ok "?"

/-! ### Overwork and underwork -/

/-- `method::push_back(change const&)` (method.h:103-104). -/
def pushBack (m : Method) (c : Change) : Method := ⟨max m.b c.n, m.ch ++ [c]⟩

/-- The string `o` of `split_over_and_under` (methodutils.cpp:462-470, 472). -/
def overString (n : Nat) (c : Change) (pos1 pos2 : Nat) : List Char :=
  let o := if (pos1 % 2 ≠ 0 ∧ pos2 ≥ pos1) ∨ (pos2 % 2 ≠ 0 ∧ pos1 ≥ pos2) then Bell.write 0 else []
  let o := o ++ ((List.range n).filter fun b =>
    c.findplace b && decide (b ≥ pos1 ∨ b ≥ pos2)).flatMap Bell.write
  if o = [] then ['x'] else o

/-- The string `u` of `split_over_and_under` (methodutils.cpp:462-471, 473).  `bell(n-1)` for `n = 0`
is not modelled (255 there). -/
def underString (n : Nat) (c : Change) (pos1 pos2 : Nat) : List Char :=
  let u := ((List.range n).filter fun b =>
    c.findplace b && decide (b ≤ pos1 ∨ b ≤ pos2)).flatMap Bell.write
  let u := u ++ (if (pos1 % 2 = n % 2 ∧ pos2 ≤ pos1) ∨ (pos2 % 2 = n % 2 ∧ pos1 ≤ pos2)
    then Bell.write (if n = 0 then 255 else n - 1) else [])
  if u = [] then ['x'] else u

/-- The loop of `split_over_and_under` (methodutils.cpp:456-478). -/
def splitLoop (n : Nat) : List Change → Row → Method → Method → Out (Method × Method)
  | [], _, over, under => .ok (over, under)
  | c :: cs, r, over, under => do
    let r2 ← Row.applyC r c
    let pos1 := Row.find r 0
    let pos2 := Row.find r2 0
    let o ← Change.ofStringC n (overString n c pos1 pos2)
    let u ← Change.ofStringC n (underString n c pos1 pos2)
    splitLoop n cs r2 (pushBack over o) (pushBack under u)

/-- `split_over_and_under` (methodutils.cpp:449-481): the overwork and the underwork. -/
def splitOverUnderC (m : Method) : Out (Method × Method) :=
  splitLoop m.b m.ch (Row.roundsC m.b) ⟨0, []⟩ ⟨0, []⟩

end MethodUtils
end Ringing
