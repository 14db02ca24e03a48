import Verif.Model.Falseness
import Verif.Model.NamedRows
/-
Model of the symbols of false course heads (ringing/falseness.cpp:228-358, ringing/falseness.dat).  A string is the
list of its characters.
-/
namespace Ringing
namespace Falseness

/-- `init_data` (falseness.cpp:230-235, falseness.dat:5-148): the rows and their names, without the terminator. -/
def initData : List (String × String) :=
  [("123456", "A"), ("124365", "B1"), ("123654", "B2"), ("125436", "B2"), ("132456", "B2"), ("143256", "B2"),
   ("125634", "C1"), ("134265", "C2"), ("142365", "C2"), ("132546", "D1"), ("146253", "D1"), ("124356", "D2"),
   ("153426", "D2"), ("163452", "D2"), ("132465", "E1"), ("143265", "E1"), ("124635", "E2"), ("125364", "E2"),
   ("132654", "F1"), ("145236", "F1"), ("124563", "F2"), ("126345", "F2"), ("156423", "G"), ("163542", "G"),
   ("153462", "H1"), ("163425", "H1"), ("136542", "H2"), ("146523", "H2"), ("156243", "H2"), ("162543", "H2"),
   ("154632", "I"), ("165324", "I"), ("153624", "K1"), ("165432", "K1"), ("134526", "K2"), ("146352", "K2"),
   ("152346", "K2"), ("164253", "K2"), ("154362", "K3"), ("164325", "K3"), ("126543", "L1"), ("136245", "L2"),
   ("142563", "L2"), ("123564", "M"), ("126435", "M"), ("123645", "M"), ("125463", "M"), ("134562", "N1"),
   ("146325", "N1"), ("154263", "N1"), ("162345", "N1"), ("153264", "N2"), ("162435", "N2"), ("135462", "N2"),
   ("143625", "N2"), ("152634", "N3"), ("165234", "N3"), ("135624", "N3"), ("145632", "N3"), ("136524", "O1"),
   ("146532", "O1"), ("152643", "O1"), ("165243", "O1"), ("153642", "O2"), ("165423", "O2"), ("156432", "O2"),
   ("163524", "O2"), ("154326", "P1"), ("164352", "P1"), ("156342", "P2"), ("164523", "P2"), ("135642", "R"),
   ("145623", "R"), ("156234", "R"), ("162534", "R"), ("134625", "S"), ("145362", "S"), ("152364", "S"),
   ("164235", "S"), ("124536", "T1"), ("126354", "T1"), ("153246", "T1"), ("162453", "T1"), ("124653", "T1"),
   ("125346", "T1"), ("136452", "T1"), ("143526", "T1"), ("132564", "T2"), ("146235", "T2"), ("132645", "T2"),
   ("145263", "T2"), ("134256", "U1"), ("135426", "U1"), ("142356", "U1"), ("143652", "U1"), ("152436", "U1"),
   ("163254", "U1"), ("135264", "U2"), ("142635", "U2"), ("123465", "a1"), ("123546", "a2"), ("126453", "a2"),
   ("125643", "b"), ("126534", "b"), ("135246", "c"), ("136254", "c"), ("142536", "c"), ("142653", "c"),
   ("134652", "d"), ("145326", "d"), ("154236", "d"), ("162354", "d"), ("136425", "e"), ("143562", "e"),
   ("152463", "e"), ("163245", "e"), ("154623", "f"), ("165342", "f"), ("156324", "f"), ("164532", "f")]

/-- `map<row, string>`: the entries in increasing order of the rows. -/
abbrev Table := List (Row × List Char)

/-- `(*table)[ k ] = v` (falseness.cpp:252-257). -/
def Table.insert (k : Row) (v : List Char) : Table → Table
  | [] => [(k, v)]
  | (x, w) :: t => if Row.lt x k then (x, w) :: Table.insert k v t else if Row.lt k x then (k, v) :: (x, w) :: t
    else (x, v) :: t

/-- `table.find(r)` (falseness.cpp:266-267). -/
def Table.find (t : Table) (r : Row) : Option (List Char) := (t.find? fun e => decide (e.1 = r)).map (·.2)

/-- The string stored for the name `s` (falseness.cpp:251-257). -/
def shortName (bells : Nat) (s : List Char) : List Char :=
  if bells = 8 then s.take 1 else if bells = 10 ∧ s = "D1".toList then "B1".toList else s

/-- The loop of `make_table` (falseness.cpp:249-258). -/
def tableLoopC (bells : Nat) : List (String × String) → Table → Out Table
  | [], t => .ok t
  | p :: ps, t =>
    Row.ofStringC p.1.toList >>= fun r => Row.mulC (Row.roundsC bells) r >>= fun k =>
    tableLoopC bells ps (Table.insert k (shortName bells p.2.toList) t)

/-- `make_table` (falseness.cpp:241-261), `cache` being `optimised_table` (no table for a null pointer). -/
def makeTableC (cache : Option Table) (bells : Nat) : Out Table :=
  match cache with
  | some ((k, v) :: t) => if k.length = bells then .ok ((k, v) :: t) else tableLoopC bells initData []
  | _ => tableLoopC bells initData []

/-- `lookup_one_symbol` (falseness.cpp:263-284): the empty string for no symbol.  The assertion is undefined
behaviour when it fails. -/
def lookupOneC (table : Table) (b : Nat) (r : Row) : Out (List Char) :=
  if tenorsTogether r then
    match Table.find table r with
    | none => .ok []
    | some s => if b = 8 ∧ s.length ≠ 1 then .ub else .ok s
  else if b = 8 then
    Row.ofStringC "17623548".toList >>= fun x => Row.mulC (Row.roundsC b) x >>= fun x =>
    if r = x then .ok "X".toList
    else
      Row.ofStringC "17645328".toList >>= fun y => Row.mulC (Row.roundsC b) y >>= fun y =>
      if r = y then .ok "Y".toList
      else
        Row.ofStringC "17632458".toList >>= fun z => Row.mulC (Row.roundsC b) z >>= fun z =>
        if r = z then .ok "Z".toList else .ok []
  else .ok []

/-- `false_courses::optimise` (falseness.cpp:288-294): the new value of `optimised_table`. -/
def optimiseC (cache : Option Table) (bells : Nat) : Out (Option Table) :=
  if bells = 0 then .ok none else makeTableC cache bells >>= fun t => .ok (some t)

/-- `operator<` of two strings. -/
def strLt (a b : List Char) : Bool := Row.lt (a.map Char.toNat) (b.map Char.toNat)

/-- The loop of `false_courses::symbols` (falseness.cpp:319-323): the set of strings in increasing order. -/
def symsLoopC (table : Table) (b : Nat) : List Row → List (List Char) → Out (List (List Char))
  | [], s => .ok s
  | r :: rs, s =>
    lookupOneC table b r >>= fun sym =>
    symsLoopC table b rs (if sym = [] then s else (Group.setInsert strLt sym s).1)

/-- `false_courses::symbols` (falseness.cpp:296-330) of an object with the rows `t`, the flags and the lead head
`lh`. -/
def symbolsC (cache : Option Table) (t : List Row) (flags : Nat) (lh : Row) : Out (List Char) :=
  let b := lh.length
  if has flags TENORS_TOGETHER = false ∧ b ≠ 8 then .throw .logicError
  else if b % 2 = 1 then .throw .logicError
  else
    Row.ispblh0C lh >>= fun i =>
    if i = 0 then .throw .logicError
    else
      makeTableC cache b >>= fun table =>
      symsLoopC table b t [] >>= fun syms => .ok syms.flatten

/-- The inner loop of `false_courses::lookup_symbol` (falseness.cpp:344-354): the first symbol found, or the empty
string. -/
def lookupInnerC (table : Table) (b : Nat) (r i : Row) : List Row → Out (List Char)
  | [] => .ok []
  | j :: js =>
    Row.mulC i r >>= fun x => Row.mulC x j >>= fun fch =>
    lookupOneC table b fch >>= fun sym =>
    if sym ≠ [] then .ok sym
    else
      Row.inverseC fch >>= fun inv =>
      lookupOneC table b inv >>= fun sym =>
      if sym ≠ [] then .ok sym else lookupInnerC table b r i js

/-- The outer loop of `false_courses::lookup_symbol` (falseness.cpp:343-354). -/
def lookupOuterC (table : Table) (b : Nat) (r : Row) (g : List Row) : List Row → Out (List Char)
  | [] => .ok []
  | i :: is =>
    lookupInnerC table b r i g >>= fun sym =>
    if sym ≠ [] then .ok sym else lookupOuterC table b r g is

/-- `false_courses::lookup_symbol` (falseness.cpp:332-358).  `r[0]` of the empty row in the assertion is not reached,
as the assertion is about 8 bells. -/
def lookupSymbolC (cache : Option Table) (r : Row) : Out (List Char) :=
  makeTableC cache r.length >>= fun table =>
  let b := r.length
  Row.pblhC b 1 >>= fun pblh =>
  Change.ofStringC b "12".toList >>= fun c =>
  Row.applyC [] c >>= fun lhc =>
  Group.ofRowsC pblh lhc >>= fun g =>
  lookupOuterC table b r g.v g.v >>= fun sym =>
  if sym ≠ [] then .ok sym
  else if r.length = 8 ∧ r.getD 0 0 = 0 then .ub
  else .ok []

end Falseness
end Ringing
