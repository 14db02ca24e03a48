import Verif.Model.RowCycles
/-
Model of the integer functions of ringing/mathutils.cpp.  (`hcf` and `lcm` are in
Model/RowCycles.)  `unsigned` has 32 bits and wraps; `RINGING_LLONG` has 64 bits, overflow of it is
undefined behaviour.
-/
namespace Ringing

/-- The width of `unsigned`. -/
def u32 (x : Nat) : Nat := x % 2 ^ 32

/-- The width of `size_t`. -/
def u64 (x : Nat) : Nat := x % 2 ^ 64

/-- `while (--n) f *= n;` (mathutils.cpp:73-74), for `n ≥ 1`. -/
def factLoop : (n : Nat) → (f : Nat) → Nat
  | 0, f => f
  | n + 1, f => if n = 0 then f else factLoop n (u32 (f * n))

/-- `factorial` (mathutils.cpp:69-76). -/
def factorialC (n : Nat) : Nat := if n = 0 then 1 else factLoop n n

/-- The `while (--n)` loop of `fibonacci` (mathutils.cpp:82-87), for `n ≥ 1`. -/
def fibLoop : (n : Nat) → (f1 f2 : Nat) → Nat
  | 0, _, f2 => f2
  | n + 1, f1, f2 => if n = 0 then f2 else fibLoop n f2 (u32 (f1 + f2))

/-- `fibonacci` (mathutils.cpp:78-89). -/
def fibonacciC (n : Nat) : Nat := if n = 0 then 1 else fibLoop n 1 1

/-- A `RINGING_LLONG` result: undefined behaviour unless it fits into 64 bits. -/
def llong (x : Int) : Out Int := if -2 ^ 63 ≤ x ∧ x < 2 ^ 63 then .ok x else .ub

/-- `ipower` (mathutils.cpp:159-171) for a non-negative exponent. -/
def ipowerNatC (base : Int) (e : Nat) : Out Int :=
  if _h : e = 0 then .ok 1
  else if e % 2 = 1 then do
    let t ← ipowerNatC base (e - 1)
    llong (base * t)
  else do
    let t ← ipowerNatC base (e / 2)
    llong (t * t)
termination_by e
decreasing_by all_goals omega

/-- `ipower` (mathutils.cpp:159-171). -/
def ipowerC (base e : Int) : Out Int := if e < 0 then .ok 0 else ipowerNatC base e.toNat

/-- The loop of `is_prime` (mathutils.cpp:180-182), `pmax` being the floor of the square root. -/
def primeLoop (n pmax : Nat) : (fuel : Nat) → (p : Nat) → Out Bool
  | 0, _ => .timeout
  | fuel + 1, p =>
    if p ≤ pmax then (if n % p = 0 then .ok false else primeLoop n pmax fuel (p + 1)) else .ok true

/-- `is_prime` (mathutils.cpp:176-184).  The square root of an `unsigned` computed in `double`
arithmetic has the exact integer part (a `double` has 53 bits), so `Nat.sqrt` is used. -/
def isPrimeC (n : Nat) : Out Bool :=
  if n < 2 then .ok false else primeLoop n (Nat.sqrt n) (n + 1) 2

/-- The loop of `next_prime` (mathutils.cpp:186-191); `++n` wraps at 32 bits. -/
def nextPrimeC : (fuel : Nat) → Nat → Out Nat
  | 0, _ => .timeout
  | fuel + 1, n => do
    let n := u32 (n + 1)
    let p ← isPrimeC n
    if p then pure n else nextPrimeC fuel n

/-- The `q` loop of `landau` (mathutils.cpp:207-211): powers of `p` up to `m`. -/
def landauQ (p m : Nat) : (fuel : Nat) → (q : Nat) → (g : List Nat) → Out (List Nat)
  | 0, _, _ => .timeout
  | fuel + 1, q, g =>
    if q ≤ m then do
      let x ← vget g (m - q)
      let y ← vget g m
      let gm := u32 (q * x)
      let g ← if gm > y then vset g m gm else pure g
      landauQ p m fuel (u32 (q * p)) g
    else pure g

/-- The `m` loop of `landau` (mathutils.cpp:206-211): from `m` down to 1. -/
def landauM (p : Nat) : (m : Nat) → (g : List Nat) → Out (List Nat)
  | 0, g => .ok g
  | m + 1, g => do
    let g ← landauQ p (m + 1) (m + 2) p g
    landauM p m g

/-- The `p` loop of `landau` (mathutils.cpp:205-211): over the primes up to `pmax`. -/
def landauP (n pmax : Nat) : (fuel : Nat) → (p : Nat) → (g : List Nat) → Out (List Nat)
  | 0, _, _ => .timeout
  | fuel + 1, p, g =>
    if p ≤ pmax then do
      let g ← landauM p n g
      let p' ← nextPrimeC (p + 1) p
      landauP n pmax fuel p' g
    else pure g

/-- `landau` (mathutils.cpp:199-213).  The floating-point bound `pmax` is a parameter. -/
def landauC (n pmax : Nat) : Out Nat := do
  let g ← landauP n pmax (pmax + 1) 2 (List.replicate (n + 1) 1)
  vget g n

end Ringing
