import Verif.Model.Row
import Verif.Model.Bell
/-
Model of the cycle-structure functions of class `row` (row.cpp:387-491, 519-535, 627-695) and of
`hcf`/`lcm` (mathutils.cpp:53-67, mathutils.h).
-/
namespace Ringing

/-- `hcf`'s do-while loop (mathutils.cpp:59-63); division by zero is undefined behaviour. -/
def hcfLoop : (fuel : Nat) → Nat → Nat → Out Nat
  | 0, _, _ => .timeout
  | fuel + 1, a, b =>
    if b = 0 then .ub
    else
      let r := a % b
      if r > 0 then hcfLoop fuel b r else .ok b

/-- `hcf` (mathutils.cpp:53-67) for non-negative arguments. -/
def hcfC (a b : Nat) : Out Nat :=
  let (a, b) := if a < b then (b, a) else (a, b)
  hcfLoop (b + 1) a b

/-- `lcm` (mathutils.h:51-57), for non-negative arguments; an overflow of the `int` product is
undefined behaviour. -/
def lcmC (a b : Nat) : Out Nat :=
  if a = 1 then .ok b
  else if b = 1 then .ok a
  else if a * b ≥ 2 ^ 31 then .ub
  else do
    let h ← hcfC a b
    if h = 0 then .ub else pure (a * b / h)

namespace Row

/-- The do-while loop of `row::cycle_size` (row.cpp:390-393), starting at `i` with count `n`. -/
def cycleSizeLoop (data : Row) (b : Nat) : (fuel : Nat) → Nat → Nat → Out Nat
  | 0, _, _ => .timeout
  | fuel + 1, i, n => do
    let i ← vget data i
    if i ≠ b then cycleSizeLoop data b fuel i (n + 1) else pure (n + 1)

/-- `row::cycle_size` (row.cpp:387-395). -/
def cycleSizeC (data : Row) (b : Nat) : Out Nat := cycleSizeLoop data b (data.length + 1) b 0

/-- The inner do-while loop of `row::cycles` (row.cpp:438-442) and `row::num_cycles`
(row.cpp:410-413): follow the row from `i`, marking and collecting the bells, until a marked one. -/
def cycleLoop (data : Row) : (fuel : Nat) → (done : List Bool) → (i : Nat) → (acc : List Nat) →
    Out (List Bool × Nat × List Nat)
  | 0, _, _, _ => .timeout
  | fuel + 1, done, i, acc => do
    let acc := acc ++ [i]
    let done ← vset done i true
    let i ← vget data i
    let d ← vget done i
    if d then pure (done, i, acc) else cycleLoop data fuel done i acc

/-- `while ( i < bells() && done[i] ) ++i;` (row.cpp:408, 436). -/
def skipDone : (fuel : Nat) → (done : List Bool) → Nat → Nat
  | 0, _, i => i
  | fuel + 1, done, i => if done.getD i false then skipDone fuel done (i + 1) else i

/-- The outer loop of `row::cycles` (row.cpp:434-444), collecting the cycles as lists of bells. -/
def cyclesLoop (data : Row) : (fuel : Nat) → (done : List Bool) → (i : Nat) →
    (acc : List (List Nat)) → Out (List (List Nat))
  | 0, _, _, _ => .timeout
  | fuel + 1, done, i, acc => do
    let i := skipDone data.length done i
    if i = data.length then pure acc
    else do
      let (done, i, c) ← cycleLoop data (data.length + 1) done i []
      cyclesLoop data fuel done i (acc ++ [c])

/-- The cycles found by `row::cycles` (row.cpp:421-448), before writing them to a string. -/
def cyclesListC (data : Row) : Out (List (List Nat)) :=
  if data.isEmpty then .ok []
  else cyclesLoop data (data.length + 1) (List.replicate data.length false) 0 []

/-- Writing the cycles: each bell by `to_char`, a comma after each cycle and the last comma erased
(row.cpp:439, 443, 446). -/
def cyclesString (cs : List (List Nat)) : List Char :=
  (cs.flatMap fun c => c.map Bell.toChar ++ [',']).dropLast

/-- `row::cycles` (row.cpp:421-448). -/
def cyclesC (data : Row) : Out (List Char) := do
  let cs ← cyclesListC data
  pure (cyclesString cs)

/-- `row::num_cycles` (row.cpp:398-418): the same two loops, counting. -/
def numCyclesC (data : Row) : Out Nat := do
  let cs ← cyclesListC data
  pure cs.length

/-- `row::sign` (row.cpp:486-491). -/
def signC (data : Row) : Out Int :=
  if data.length = 0 then .ok 1
  else do
    let s ← cyclesC data
    pure (if s.length % 2 = 1 then 1 else -1)

/-- The loop of `row::order` (row.cpp:476-480) over the string of cycles: `len` is `j - i`. -/
def orderLoop : List Char → (len : Nat) → (o : Nat) → Out Nat
  | [], len, o => lcmC o len
  | c :: cs, len, o =>
    if c ≠ ',' then orderLoop cs (len + 1) o
    else do
      let o ← lcmC o len
      -- `if(j != cyc.end()) i = ++j;` then the test `j != cyc.end()`
      if cs.isEmpty then pure o else orderLoop cs 0 o

/-- `row::order` (row.cpp:459-483). -/
def orderC (data : Row) : Out Nat :=
  if data.isEmpty then .ok 1
  else do
    let s ← cyclesC data
    if s.isEmpty then pure 1 else orderLoop s 0 1

/-- `row::power` (row.cpp:519-535) for a non-negative exponent. Note that the reduction modulo the
order need not make the exponent smaller. -/
def powerNatC : (fuel : Nat) → Row → Nat → Out Row
  | 0, _, _ => .timeout
  | fuel + 1, r, n =>
    if n = 0 then .ok (roundsC r.length)
    else if n > r.length * r.length then do
      let o ← orderC r
      if o = 0 then .ub else powerNatC fuel r (n % o)
    else if n % 2 = 1 then do
      let p ← powerNatC fuel r (n - 1)
      mulC r p
    else do
      let t ← powerNatC fuel r (n / 2)
      mulC t t

/-- `row::power` (row.cpp:519-535). `-n` overflows for the least `int`, which is excluded. -/
def powerC (fuel : Nat) (r : Row) (n : Int) : Out Row :=
  if n < 0 then do
    let i ← inverseC r
    powerNatC fuel i n.natAbs
  else powerNatC fuel r n.natAbs

/-- Pure version of `row::power` for non-negative exponents: repeated multiplication. -/
def npow (r : Row) : Nat → Row
  | 0 => rounds r.length
  | k + 1 => mul r (npow r k)

end Row
end Ringing
