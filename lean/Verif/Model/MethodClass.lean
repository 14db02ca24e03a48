import Verif.Model.Method
/-
Model of `method::methclass` (ringing/method.cpp:298-411).
-/
namespace Ringing
namespace Method

/-- `lhr[i]` for a row variable.  `past` is the outcome of reading the element one past the end, which
`methclass` does: `.ub` in the strict reading of the C++ standard, or `.ok j` for any `j` the memory
there may hold. -/
def rdPast (r : Row) (past : Out Nat) (i : Nat) : Out Nat :=
  if i = r.length then past else vget r i

/-- `for (hb = 0; lhr[hb] != hb && hb < n; ++hb);` (method.cpp:306-308). -/
def huntLoop (r : Row) (past : Out Nat) (n : Nat) : (fuel : Nat) → (i : Nat) → Out Nat
  | 0, _ => .timeout
  | fuel + 1, i => rdPast r past i >>= fun x =>
    if x ≠ i ∧ i < n then huntLoop r past n fuel (i + 1) else .ok i

/-- `for (i = 0; lhr[i] == i && i < n; ++i);` (method.cpp:313-314). -/
def workLoop (r : Row) (past : Out Nat) (n : Nat) : (fuel : Nat) → (i : Nat) → Out Nat
  | 0, _ => .timeout
  | fuel + 1, i => rdPast r past i >>= fun x =>
    if x = i ∧ i < n then workLoop r past n fuel (i + 1) else .ok i

/-- The size of the first set of working bells (method.cpp:311-317). -/
def wbC (r : Row) (past : Out Nat) (n : Nat) : Out Nat :=
  workLoop r past n (n + 1) 0 >>= fun i => if i < n then Row.cycleSizeC r i else .ok 0

/-- The loop of method.cpp:323-327, `k` iterations from `i`: is there a working bell in a cycle of
another size? -/
def diffLoop (r : Row) (wb : Nat) : (k i : Nat) → Out Bool
  | 0, _ => .ok false
  | k + 1, i => vget r i >>= fun x =>
    if x ≠ i then
      Row.cycleSizeC r i >>= fun s => if s ≠ wb then .ok true else diffLoop r wb k (i + 1)
    else diffLoop r wb k (i + 1)

/-- The differential flag (method.cpp:319-333).  `n - huntbells()` is unsigned, and never negative
because at most `n` bells are hunt bells. -/
def differentialC (m : Method) (r : Row) (wb : Nat) (year : Int) : Out Bool :=
  if year ≥ 2019 then diffLoop r wb m.b 0
  else huntbellsC m >>= fun h => .ok (decide (wb < m.b - h))

/-- The range of the treble (method.cpp:341-347): `(j, tmin, tmax)`. -/
def trebleRange (ch : List Change) (hb : Nat) : Nat × Nat × Nat :=
  ch.foldl (fun s c =>
    let j := c.pos s.1
    (j, if j < s.2.1 then j else s.2.1, if j > s.2.2 then j else s.2.2)) (hb, hb, hb)

/-- `for (i = 1; i < bells(); i++) if (hasdodges(i)) ...` (method.cpp:366-367). -/
def anyDodges (m : Method) : (k i : Nat) → Out Bool
  | 0, _ => .ok false
  | k + 1, i => hasdodgesC m i >>= fun d => if d then .ok true else anyDodges m k (i + 1)

/-- `count[j-tmin]++` on a `vector<char>` (method.cpp:378, 384). -/
def bump (count : List Nat) (i : Nat) : Out (List Nat) :=
  vget count i >>= fun x => vset count i ((x + 1) % 256)

/-- The loop of method.cpp:377-383: `k` iterations from `i`; the state is the counts, the position of
the treble and the flag `place`. -/
def countLoop (m : Method) (tmin : Nat) : (k i : Nat) → (count : List Nat) → (j : Nat) → (place : Bool) →
    Out (List Nat × Nat × Bool)
  | 0, _, count, j, place => .ok (count, j, place)
  | k + 1, i, count, j, place =>
    bump count (j - tmin) >>= fun count =>
    at' m (i % m.length) >>= fun c =>
    countLoop m tmin k (i + 1) count (c.pos j) (if c.pos j = j then true else place)

/-- The loop over the section ends (method.cpp:401-404): whether some place / some absence of places
is found. -/
def sectionLoop (m : Method) (step : Nat) : (fuel : Nat) → (i : Nat) → (y n : Bool) → Out (Bool × Bool)
  | 0, _, _, _ => .timeout
  | fuel + 1, i, y, n =>
    if i + 1 < m.length / 2 then
      at' m i >>= fun c =>
      at' m (m.length - i - 2) >>= fun d =>
      sectionLoop m step fuel (i + step) (y || c.internal || d.internal) (n || !c.internal || !d.internal)
    else .ok (y, n)

/-- The class numbers (method.h:58-69). -/
def M_PRINCIPLE : Nat := 1
/-- `M_BOB` (method.h:60). -/
def M_BOB : Nat := 2
/-- `M_PLACE` (method.h:61). -/
def M_PLACE : Nat := 3
/-- `M_TREBLE_BOB` (method.h:62). -/
def M_TREBLE_BOB : Nat := 4
/-- `M_SURPRISE` (method.h:63). -/
def M_SURPRISE : Nat := 5
/-- `M_DELIGHT` (method.h:64). -/
def M_DELIGHT : Nat := 6
/-- `M_TREBLE_PLACE` (method.h:65). -/
def M_TREBLE_PLACE : Nat := 7
/-- `M_ALLIANCE` (method.h:66). -/
def M_ALLIANCE : Nat := 8
/-- `M_HYBRID` (method.h:67). -/
def M_HYBRID : Nat := 9
/-- `M_SLOW_COURSE` (method.h:68). -/
def M_SLOW_COURSE : Nat := 10
/-- `M_DIFFERENTIAL` (method.h:70). -/
def M_DIFFERENTIAL : Nat := 0x10
/-- `M_LITTLE` (method.h:71). -/
def M_LITTLE : Nat := 0x80

/-- The treble dodging classes (method.cpp:394-407). -/
def dodgingClass (m : Method) (tmin tmax : Nat) : Out Nat :=
  if tmax - tmin = 1 then .ok M_TREBLE_BOB
  else
    let step := m.length / (tmax - tmin + 1)
    if step = 0 then .ub
    else sectionLoop m step (m.length + 1) (step - 1) false false >>= fun yn =>
      if !yn.1 && yn.2 then .ok M_TREBLE_BOB else if yn.1 && !yn.2 then .ok M_SURPRISE else .ok M_DELIGHT

/-- Whether all counts are equal (method.cpp:388-390). -/
def allEqual (count : List Nat) (k : Nat) : Bool :=
  (List.range k).all fun i => decide (count.getD (i + 1) 0 = count.getD i 0)

/-- The classes of a treble that does not plain hunt (method.cpp:372-410). -/
def trebleClass (m : Method) (hb tmin tmax sym : Nat) : Out Nat :=
  traceC m hb (sym + 1) >>= fun j =>
  countLoop m tmin (m.length / 2 - 1) (sym + 1) (List.replicate (tmax - tmin + 1) 0) j false >>= fun s =>
  bump s.1 (s.2.1 - tmin) >>= fun count =>
  if allEqual count (tmax - tmin) then
    if s.2.2 then .ok M_TREBLE_PLACE else dodgingClass m tmin tmax
  else .ok M_ALLIANCE

/-- The classes of a plain hunting treble (method.cpp:360-369). -/
def plainClass (m : Method) (r : Row) (past : Out Nat) (hb : Nat) (year : Int) : Out Nat :=
  (if year < 2019 ∧ hb = 0 then rdPast r past 1 >>= fun x =>
    if x = 1 then issymBellC m 1 else .ok false
  else .ok false) >>= fun slow =>
  if slow then .ok M_SLOW_COURSE
  else anyDodges m (m.b - 1) 1 >>= fun d => .ok (if d then M_BOB else M_PLACE)

/-- `method::methclass` (method.cpp:298-411). -/
def methclassC (past : Out Nat) (m : Method) (year : Int) : Out Nat :=
  lhC m >>= fun lhr =>
  huntLoop lhr past m.b (m.b + 1) 0 >>= fun hb =>
  wbC lhr past m.b >>= fun wb =>
  differentialC m lhr wb year >>= fun diff =>
  let cl := if diff then M_DIFFERENTIAL else 0
  if hb = m.b then .ok (cl ||| M_PRINCIPLE)
  else
    let t := trebleRange m.ch hb
    let tmin := t.2.1
    let tmax := t.2.2
    let cl := if tmax + 1 < m.b ∨ tmin > 0 then cl ||| M_LITTLE else cl
    if m.length % 2 = 1 then .ok (cl ||| M_HYBRID)
    else
      symmetryPointBellC m hb >>= fun sym =>
      if sym = -1 then .ok (cl ||| M_HYBRID)
      else if isplain m hb then plainClass m lhr past hb year >>= fun k => .ok (cl ||| k)
      else trebleClass m hb tmin tmax sym.toNat >>= fun k => .ok (cl ||| k)

end Method
end Ringing
