import Verif.Model.Change
/-
Model of the named rows of class `row` (row.cpp:244-385) and of class `row_block`
(row.cpp:592-625).
-/
namespace Ringing
namespace Row

/-- `row::queens` (row.cpp:244-262). Values are converted to 8-bit bells. -/
def queensC (n : Nat) : Out Row := do
  let r := roundsC n
  if n ≤ 2 then pure r
  else do
    let half := if n % 2 = 1 then (n + 1) / 2 else n / 2
    let r ← forUp 0 (half + 1) r fun r i => vset r i (toBell (i * 2))
    forUp 0 (n / 2) r fun r i => vset r (i + half) (toBell (i * 2 + 1))

/-- `row::kings` (row.cpp:265-283). At `i = half` the value is the `int` -2, that is bell 254. -/
def kingsC (n : Nat) : Out Row := do
  let r := roundsC n
  if n ≤ 2 then pure r
  else do
    let half := if n % 2 = 1 then (n + 1) / 2 else n / 2
    let r ← forUp 0 (half + 1) r fun r i =>
      vset r i (toBell (((half * 2 : Nat) : Int) - ((i * 2 : Nat) : Int) - 2 + 256).toNat)
    forUp 0 (n / 2) r fun r i => vset r (i + half) (toBell (i * 2 + 1))

/-- `row::tittums` (row.cpp:286-298): the two loops in steps of 2, the `t`-th step of the first one
being `i = 2t`, `j = t`. -/
def tittumsC (n : Nat) : Out Row := do
  let r := roundsC n
  let r ← forUp 0 ((n + 1) / 2) r fun r t => vset r (2 * t) (toBell t)
  forUp 0 (n / 2) r fun r t => vset r (2 * t + 1) (toBell ((n + 1) / 2 + t))

/-- `row::reverse_rounds(int)` (row.cpp:301-308). -/
def reverseRoundsC (n : Nat) : Out Row :=
  forUp 0 n (roundsC n) fun r i => vset r i (toBell (n - i - 1))

/-- `row::reverse_rounds(int, int, int)` (row.cpp:311-321). -/
def reverseRounds3C (nw nh nt : Nat) : Out Row := do
  let nt := if nt = 0 then nh + nw else nt
  let r := roundsC nt
  let r ← forUp 0 nh r fun r i => vset r i (toBell i)
  forUp nh (nh + nw) r fun r i => vset r i (toBell (2 * nh + nw - i - 1))

/-- `for(int i = h; i < n-1; i += 2) c.swappair(i);` (row.cpp:332-333, 338-339). -/
def swapLoopC (n : Nat) : (fuel : Nat) → (i : Nat) → Change → Out Change
  | 0, _, _ => .timeout
  | fuel + 1, i, c =>
    if i + 1 < n then do
      let (_, c) ← c.swappairC i
      swapLoopC n fuel (i + 2) c
    else .ok c

/-- `row::pblh` (row.cpp:326-344). -/
def pblhC (n h : Nat) : Out Row := do
  let c ← swapLoopC n (n + 1) h ⟨n, []⟩
  let r ← applyC (roundsC n) c
  let c ← swapLoopC n (n + 1) (h + 1) ⟨n, []⟩
  applyC r c

/-- `row::cyclic` (row.cpp:346-355): `std::rotate` of the part from `h`; `%` is C's remainder. -/
def cyclicC (n h : Nat) (c : Int) : Row :=
  let r := roundsC n
  if h < n then
    let c := Int.tmod c ((n - h : Nat) : Int)
    let c := if c < 0 then c + ((n - h : Nat) : Int) else c
    let k := c.toNat
    r.take h ++ ((r.drop h).drop k ++ (r.drop h).take k)
  else r

/-- The loop of `row::ispblh(int)` (row.cpp:370-373). -/
def ispblhLoop (this l : Row) : (k : Nat) → (i : Nat) → (r : Row) → Out Nat
  | 0, _, _ => .ok 0
  | k + 1, i, r =>
    if this = r then .ok i
    else do
      let r ← mulC r l
      ispblhLoop this l k (i + 1) r

/-- `row::ispblh(int)` (row.cpp:367-375). -/
def ispblhC (this : Row) (h : Nat) : Out Nat := do
  let l ← pblhC this.length h
  ispblhLoop this l (this.length - h - 1) 1 l

/-- `for(h = 0; h < bells() && data[h] == h; h++);` (row.cpp:382). -/
def leadingFixedLoop (r : Row) : (fuel : Nat) → (h : Nat) → Nat
  | 0, h => h
  | fuel + 1, h => if h < r.length ∧ r.getD h 0 = h then leadingFixedLoop r fuel (h + 1) else h

/-- The value of `h` after the loop (row.cpp:381-382). -/
def leadingFixed (r : Row) : Nat := leadingFixedLoop r r.length 0

/-- `row::ispblh()` (row.cpp:378-385). -/
def ispblh0C (this : Row) : Out Nat :=
  if this.isEmpty then .ok 1
  else
    let h := leadingFixed this
    if h = 0 then .ok 0 else ispblhC this h

end Row

/-- `row_block` (row.h:243-264): the rows; the changes are held by reference. -/
structure RowBlock where
  rows : List Row
  ch : List Change
  deriving DecidableEq, Repr

namespace RowBlock

/-- `row_block_base_size` (row.cpp:592-598). -/
def baseSize (c : List Change) (halfLead noFinal : Bool) : Nat :=
  let sz := c.length
  let sz := if halfLead then sz / 2 else sz
  if noFinal then sz else sz + 1

/-- `row_block::recalculate` (row.cpp:619-625) for a non-negative `start`. -/
def recalculateC (b : RowBlock) (start : Nat) : Out RowBlock := do
  let rows ← forUp start (b.rows.length - 1) b.rows fun rows i => do
    let r ← vget rows i
    let c ← vget b.ch i
    let s ← Row.applyC r c
    vset rows (i + 1) s
  pure ⟨rows, b.ch⟩

/-- `row_block::row_block(const vector<change>&, int)` (row.cpp:600-607). -/
def ofChangesC (c : List Change) (halfLead noFinal : Bool) : Out RowBlock := do
  let rows : List Row := List.replicate (baseSize c halfLead noFinal) []
  match c with
  | [] => pure ⟨rows, c⟩
  | c0 :: _ => do
    let rows ← vset rows 0 (Row.roundsC c0.n)
    recalculateC ⟨rows, c⟩ 0

/-- `row_block::row_block(const vector<change>&, const row&, int)` (row.cpp:609-616). -/
def ofRowC (c : List Change) (r : Row) (halfLead noFinal : Bool) : Out RowBlock := do
  let rows : List Row := List.replicate (baseSize c halfLead noFinal) []
  if rows.length ≠ 0 then do
    let rows ← vset rows 0 r
    recalculateC ⟨rows, c⟩ 0
  else pure ⟨rows, c⟩

/-- `row_block::set_start` (row.h:258-259). -/
def setStartC (b : RowBlock) (r : Row) : Out RowBlock := do
  let rows ← vset b.rows 0 r
  pure ⟨rows, b.ch⟩

end RowBlock
end Ringing
