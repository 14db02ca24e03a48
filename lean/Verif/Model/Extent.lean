import Verif.Model.MathUtils
import Verif.Model.Change
/-
Model of ringing/extent.h and ringing/extent.cpp.
-/
namespace Ringing

/-- `std::next_permutation` for the strict order `R` (`std::next_permutation` for `<`,
`std::prev_permutation` for `>`): find the last position followed by a larger element, swap it with
the last larger element and reverse the tail.  The recursion finds the last such position: only if
the tail is already at its last permutation (`none`, and then non-increasing) is the head a
candidate.  `none`: the function returned false (the range is then at its last permutation). -/
def permStep (R : Nat → Nat → Bool) : List Nat → Option (List Nat)
  | [] => none
  | a :: l =>
    match permStep R l with
    | some l' => some (a :: l')
    | none =>
      match l.reverse.findIdx? (fun x => R a x) with
      | some i => some (l.reverse.getD i 0 :: l.reverse.set i a)
      | none => none

/-- `std::next_permutation`. -/
def nextPerm (l : List Nat) : Option (List Nat) := permStep (fun a b => decide (a < b)) l
/-- `std::prev_permutation`. -/
def prevPerm (l : List Nat) : Option (List Nat) := permStep (fun a b => decide (b < a)) l

/-- `extent_iterator` (extent.h:131-136); `nw`, `nh` and `nt` never change. -/
structure ExtIter where
  fin : Bool
  r : Row
  deriving DecidableEq, Repr

namespace ExtIter

/-- The constructors of `extent_iterator` (extent.cpp:52-59). -/
def start (nt : Nat) : ExtIter := ⟨false, Row.roundsC nt⟩

/-- `extent_iterator::end` (extent.cpp:93-98). -/
def done (nt : Nat) : ExtIter := ⟨true, Row.roundsC nt⟩

/-- The working bells' part of a vector is replaced. -/
def splice (v : List Nat) (nw nh : Nat) (w : List Nat) : List Nat := v.take nh ++ w ++ v.drop (nh + nw)

/-- `extent_iterator::operator++` (extent.cpp:61-67): iterators beyond the end of the vector are
undefined behaviour; the swap back validates the row (row.h:134). -/
def incC (nw nh : Nat) (it : ExtIter) : Out ExtIter :=
  if it.r.length < nh + nw then .ub
  else match nextPerm ((it.r.drop nh).take nw) with
    | none => .ok ⟨true, []⟩
    | some w => do
      let r ← Row.ofVectorC (splice it.r nw nh w)
      pure ⟨false, r⟩

/-- `extent_iterator::operator--` (extent.cpp:69-84).  `prev_permutation` on the first permutation
leaves the last one, i.e. the reversed range. -/
def decC (nw nh nt : Nat) (it : ExtIter) : Out ExtIter :=
  if it.fin then
    if nt < nh ∨ (0 < nw ∧ nt < nh + nw) then .ub
    else do
      let r ← Row.ofVectorC ((List.range nh).map toBell ++
        (List.range nw).map (fun i => toBell (nw + nh - 1 - (nh + i) + nh)) ++
        (List.range' (nh + nw) (nt - (nh + nw))).map toBell)
      pure ⟨it.fin, r⟩
  else if it.r.length < nh + nw then .ub
  else do
    let w := (it.r.drop nh).take nw
    let r ← Row.ofVectorC (splice it.r nw nh ((prevPerm w).getD w.reverse))
    pure ⟨it.fin, r⟩

/-- `extent_iterator::operator==` (extent.h:81-82). -/
def eq (a b : ExtIter) : Bool := a.fin == b.fin && (a.fin || a.r == b.r)

/-- `extent_iterator::operator<` (extent.cpp:86-91). -/
def lt (a b : ExtIter) : Bool :=
  if b.fin then !a.fin else if a.fin then false else Row.lt a.r b.r

/-- `k` increments. -/
def incN (nw nh : Nat) : Nat → ExtIter → Out ExtIter
  | 0, it => .ok it
  | k + 1, it => incC nw nh it >>= incN nw nh k

end ExtIter

namespace Extent

/-- The two checks of `position_in_extent` (extent.cpp:107-112): bells `lo .. hi-1` at home. -/
def fixedC (r : Row) (lo hi : Nat) : Out Unit := do
  let _ ← forUp lo hi () fun _ i => do
    let x ← vget r i
    if x ≠ i then .throw .outOfRange else pure ()
  pure ()

/-- `position_in_extent` (extent.cpp:100-124); `size_t` arithmetic wraps at 64 bits.  The loop over
`j` reads `r[i]` only if some `j < b` is reached. -/
def positionC (r : Row) (nw nh nt : Nat) : Out Nat := do
  let b := r.length
  if b > nt then .throw .outOfRange else do
    fixedC r 0 nh
    fixedC r (nh + nw) nt
    forUp nh (nw + nh) 0 fun x i =>
      forUp (i + 1) (nw + nh) (u64 (x * (nw + nh - i))) fun x j =>
        if j < b then do
          let rj ← vget r j
          let ri ← vget r i
          if rj < ri then pure (u64 (x + 1)) else pure x
        else pure x

/-- The loop over `ob` in `nth_row_of_extent` (extent.cpp:137-141): `ob` and `b` are 8-bit bells;
`used` is `v[0 .. i)`. -/
def skipC (used : List Nat) : (fuel : Nat) → (ob b : Nat) → Out Nat
  | 0, _, _ => .timeout
  | fuel + 1, ob, b =>
    if ob ≤ b then
      skipC used fuel (toBell (ob + 1)) (if used.contains ob then toBell (b + 1) else b)
    else .ok b

/-- The loop over `i` in `nth_row_of_extent` (extent.cpp:132-144): `k` bells remain to be placed,
`v` is `v[0 .. i)`. -/
def nthLoopC (nh : Nat) : (k : Nat) → (n : Nat) → (v : List Nat) → Out (List Nat)
  | 0, _, v => .ok v
  | k + 1, n, v =>
    let fact := factorialC k
    if fact = 0 then .ub
    else do
      let b ← skipC v 258 (toBell nh) (toBell (u64 (n / fact + nh)))
      nthLoopC nh k (n % fact) (v ++ [b])

/-- `nth_row_of_extent` (extent.cpp:126-147); writing beyond `nt` is undefined behaviour. -/
def nthRowC (n nw nh nt : Nat) : Out Row :=
  if nt < nh + nw then .ub
  else do
    let v ← nthLoopC nh nw n ((List.range nh).map toBell)
    Row.ofVectorC (v ++ (List.range' (nh + nw) (nt - (nh + nw))).map toBell)

/-- The loop of `sign_of_nth_row_of_extent` (extent.cpp:155-158) with `i = k + 1`; `f` is unused. -/
def signLoop (k n : Nat) : Int :=
  if h : n = 0 then 1
  else (if (n % (k + 1)) % 2 = 0 then 1 else -1) * signLoop (k + 1) (n / (k + 1))
termination_by (n, 1 - k)
decreasing_by
  by_cases hk : k = 0
  · subst hk; simp [Prod.lex_def]
  · have : n / (k + 1) < n := Nat.div_lt_self (Nat.pos_of_ne_zero h) (by omega)
    simp [Prod.lex_def, this]

/-- `sign_of_nth_row_of_extent` (extent.cpp:149-160). -/
def signOfNth (n : Nat) : Int := signLoop 0 n

/-- `extent::size` (extent.cpp:182-185). -/
def sizeC (nw : Nat) : Nat := factorialC nw

/-- `nth_row_of_incourse_extent` (extent.cpp:188-198); `nw+nh-2` is an `unsigned` converted to a
bell. -/
def nthIncourseC (n nw nh nt : Nat) : Out Row := do
  let r ← nthRowC (u64 (n * 2)) nw nh nt
  let s ← Row.signC r
  if s < 0 then do
    let (_, c) ← Change.swappairC ⟨nt, []⟩ (toBell (u32 (nw + nh + 2 ^ 32 - 2)))
    Row.applyC r c
  else pure r

/-- `position_in_incourse_extent` (extent.h:226-232). -/
def positionIncourseC (r : Row) (nw nh nt : Nat) : Out Nat := do
  let x ← positionC r nw nh nt
  pure (x / 2)

/-- `incourse_extent_iterator::operator++` (extent.cpp:201-207).  The sign is not evaluated at the
end. -/
def incIncourseC (nw nh : Nat) : (fuel : Nat) → ExtIter → Out ExtIter
  | 0, _ => .timeout
  | fuel + 1, it => do
    let it ← ExtIter.incC nw nh it
    if it.fin then pure it
    else do
      let s ← Row.signC it.r
      if s < 0 then incIncourseC nw nh fuel it else pure it

end Extent

/-- `changes_iterator` (extent.h:299-302); `nw` and `nh` never change. -/
structure ChIter where
  fin : Bool
  c : Change
  stk : List Nat
  deriving DecidableEq, Repr

namespace ChIter

/-- `stk.back()-2` converted to a bell: `unsigned` subtraction wraps, then 8 bits are kept. -/
def back2 (x : Nat) : Nat := toBell (u32 (x + 2 ^ 32 - 2))

/-- `while ( stk.back() > nh+1 && !c.findswap( stk.back()-2 ) ) stk.pop_back();`
(extent.cpp:217-218).  The stack is kept with its top at the head of the list; `back()` of an empty
vector is undefined behaviour. -/
def popC (nh : Nat) (c : Change) : List Nat → Out (List Nat)
  | [] => .ub
  | x :: s => if x > nh + 1 ∧ c.findswap (back2 x) = false then popC nh c s else .ok (x :: s)

/-- `while ( stk.back() < nw+nh-1 ) { c.swappair(stk.back()); stk.push_back(stk.back()+2); }`
(extent.cpp:226-230). -/
def fillC (nw nh : Nat) : (fuel : Nat) → Change → List Nat → Out (Change × List Nat)
  | 0, _, _ => .timeout
  | _, _, [] => .ub
  | fuel + 1, c, x :: s =>
    if x < u32 (nw + nh + 2 ^ 32 - 1) then do
      let (_, c) ← c.swappairC (toBell x)
      fillC nw nh fuel c (u32 (x + 2) :: x :: s)
    else .ok (c, x :: s)

/-- The `if` of `changes_iterator::next` (extent.cpp:220-224). -/
def unswapC (c : Change) : List Nat → Out (Change × List Nat)
  | [] => .ub
  | x :: s =>
    if c.findswap (back2 x) then do
      let (_, c) ← c.swappairC (back2 x)
      pure (c, (x - 1) :: s)
    else .ok (c, x :: s)

/-- `changes_iterator::next` (extent.cpp:209-231). -/
def nextC (nw nh : Nat) (it : ChIter) : Out ChIter :=
  if nw = 0 then .ok { it with fin := true }
  else match it.stk with
    | [] => .ub
    | x :: _ =>
      if it.stk.length = nw ∧ x = nw + nh - 1 then .ok { it with fin := true }
      else do
        let stk ← popC nh it.c it.stk
        let (c, stk) ← unswapC it.c stk
        let (c, stk) ← fillC nw nh 256 c stk
        pure { it with c := c, stk := stk }

/-- The constructors of `changes_iterator` (extent.cpp:233-246). -/
def startC (nw nh nt : Nat) : Out ChIter :=
  let it : ChIter := ⟨false, ⟨nt, []⟩, [nh]⟩
  if nw > 1 then nextC nw nh it else .ok it

/-- `k` increments. -/
def nextN (nw nh : Nat) : Nat → ChIter → Out ChIter
  | 0, it => .ok it
  | k + 1, it => nextC nw nh it >>= nextN nw nh k

end ChIter
end Ringing
