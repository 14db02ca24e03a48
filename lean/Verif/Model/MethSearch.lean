import Verif.Model.MethodUtils
/-
Model of apps/methsearch/search.cpp: the search for methods (`searcher::general_recurse` and the
functions it calls).

What is modelled: the recursion with all kinds of symmetry, --start-at, --prefix, the search limit,
the stack of changes and the divisions, and of the tests of a change those for consecutive blows,
repeated changes, lead ends 12 and 1n, 78 places and the rotational symmetry at the quarter lead.
The remaining tests of a change, of a row and of a whole method are parameters (`Tests`): they depend
on the changes rung so far only, since `r` and `prv` of `searcher` are determined by them.  Not
modelled: --random, --filter, status messages and timeouts.
-/
namespace Ringing
namespace MethSearch
open MethodUtils

/-- The arguments used by the search (prog_args.h:60-190).  `start` is `startmeth` (empty if there is no
--start-at), `prefixCh` is `prefix`; `limit` is `search_limit`, 0 if there is none. -/
structure Args where
  bells : Nat
  leadLen : Nat
  huntBells : Nat
  trebleDodges : Nat
  sym : Bool
  skewsym : Bool
  doubsym : Bool
  floatingSym : Bool
  maxBlows : Nat
  longLe : Bool
  trueTrivial : Bool
  limitedLe : Bool
  no78 : Bool
  allowed : List (List Change)
  prefixCh : List Change
  start : List Change
  limit : Nat

/-- The tests that are not modelled: of a row when a change is pushed (search.cpp:599-628; the argument
ends with that change), of a change (the rest of `try_midlead_change`, `try_halflead_change`,
`try_offset_start_change`) and of a whole lead (`is_acceptable_method`). -/
structure Tests where
  rowOk : List Change → Bool
  extra : List Change → Change → Bool
  accept : List Change → Bool

/-- `sym_offset` (search.cpp:154-155). -/
def symOffset (A : Args) : Nat :=
  if A.huntBells ≠ 0 ∧ A.huntBells % 2 = 0 then 1 + A.trebleDodges else 0

/-- `div_len` (search.cpp:153) and `calc_cur_div_len` (search.cpp:669-672). -/
def divLen (A : Args) : Nat := (1 + A.trebleDodges) * 2

/-- The members of `searcher` that change during the search, and the methods given to
`output_method`. -/
structure St where
  m : List Change
  divStart : Nat
  startmeth : List Change
  count : Nat
  out : List (List Change)
  deriving DecidableEq

/-- `searcher::push_change` (search.cpp:596-634).  After a row is refused `div_start` is not updated. -/
def push (A : Args) (T : Tests) (s : St) (c : Change) : St × Bool :=
  let m := s.m ++ [c]
  if T.rowOk m then
    ({ s with m := m, divStart := if m.length = s.divStart + divLen A then s.divStart + divLen A else s.divStart }, true)
  else ({ s with m := m }, false)

/-- `searcher::pop_change` (search.cpp:636-653). -/
def pop (A : Args) (s : St) : St :=
  let m := s.m.dropLast
  { s with m := m, divStart := if s.divStart > m.length then s.divStart - divLen A else s.divStart }

/-- `while (m.length() > depth) pop_change();` (search.cpp:1408, 1431, 1446, 1463) -/
def popTo (A : Args) (depth : Nat) : (fuel : Nat) → St → St
  | 0, s => s
  | fuel + 1, s => if s.m.length > depth then popTo A depth fuel (pop A s) else s

/-! ### Tests of a change -/

/-- `for (offset = o; offset >= 0 && count <= max; --offset, ++count) if (!p(m[offset])) break;` over the
changes before, the last one first: the final `count`. -/
def countRun (p : Change → Bool) (max : Nat) : List Change → Nat → Nat
  | [], count => count
  | c :: cs, count => if count ≤ max then (if p c then countRun p max cs (count + 1) else count) else count

/-- `is_limited_le` (search.cpp:788-797). -/
def isLimitedLeC (A : Args) (ch : Change) : Out Bool := do
  let c1 ← Change.ofStringC A.bells ['1']
  if Change.eq ch c1 then pure true
  else do
    let c2 ← Change.ofStringC A.bells ['1', Bell.toChar A.huntBells]
    pure (Change.eq ch c2)

/-- `stopoff` (search.cpp:809-810, 1026-1027). -/
def stopoff (A : Args) : Nat :=
  if A.longLe then (A.leadLen + symOffset A - 1) % A.leadLen else 2 ^ 64 - 1

/-- `try_midlead_change` (search.cpp:899-1069), the tests that are modelled. -/
def tryMidleadC (A : Args) (T : Tests) (m : List Change) (ch : Change) : Out Bool :=
  if A.trueTrivial && (match m.getLast? with | some d => Change.eq d ch | none => false) then .ok false
  else do
    let bad ← if A.maxBlows ≠ 0 then
        (if A.longLe ∧ (m.length + 1) % A.leadLen = symOffset A then .ok false
         else isTooManyPlacesC ⟨A.bells, m⟩ ch A.maxBlows (stopoff A))
      else .ok false
    pure (!bad && T.extra m ch)

/-- `try_quarterlead_change` (search.cpp:1100-1135). -/
def tryQuarterlead (A : Args) (m : List Change) (ch : Change) : Bool :=
  let hl := A.leadLen / 2
  Change.eq ch ch.reverse &&
  (A.maxBlows = 0 ||
    !(List.range A.bells).any fun i => ch.findplace i &&
      (let before := (m.drop (m.length / hl * hl)).reverse
       let count := countRun (fun c => c.findplace i) (A.maxBlows + 1) before 2
       let count := countRun (fun c => c.reverse.findplace i) (A.maxBlows + 1) before count
       decide (count > A.maxBlows)))

/-- `try_halflead_sym_change` (search.cpp:799-816). -/
def tryHalfleadSymC (A : Args) (m : List Change) (ch : Change) : Out Bool := do
  let l ← if (A.skewsym ∨ A.doubsym) ∧ A.limitedLe then isLimitedLeC A ch.reverse else .ok true
  if !l then pure false
  else if (A.skewsym ∨ A.doubsym) ∧ A.no78 ∧ ch.findplace 1 then pure false
  else do
    let bad ← if A.sym ∧ A.maxBlows ≠ 0 then isTooManyPlacesC ⟨A.bells, m⟩ ch (A.maxBlows / 2 + 1) (stopoff A)
      else .ok false
    pure (!bad)

/-- `try_leadend_change` (search.cpp:836-879). -/
def tryLeadend (A : Args) (m : List Change) (ch : Change) : Bool :=
  (A.maxBlows = 0 ||
    !(List.range A.bells).any fun i => ch.findplace i &&
      (let c0 := if A.longLe ∧ symOffset A = 0 then 1 else 2
       let count := countRun (fun c => c.findplace i) A.maxBlows m.reverse c0
       decide (count > A.maxBlows) ||
       (let count := if A.longLe ∧ symOffset A = 0 then 1 else count
        let stop := if A.longLe ∧ symOffset A ≠ 0 then m.take (symOffset A) else m
        let count := countRun (fun c => c.findplace i) A.maxBlows stop count
        decide (count > A.maxBlows)))) &&
  !(A.huntBells = 0 && A.trueTrivial && (match m.head? with | some d => Change.eq ch d | none => false))

/-- `try_leadend_sym_change` (search.cpp:881-897). -/
def tryLeadendSymC (A : Args) (m : List Change) (ch : Change) : Out Bool := do
  let l ← if A.limitedLe then isLimitedLeC A ch else .ok true
  if !l then pure false
  else if A.no78 ∧ ch.findplace (A.bells - 2) then pure false
  else do
    let bad ← if A.sym ∧ ¬ A.longLe ∧ A.maxBlows ≠ 0 then
        isTooManyPlacesC ⟨A.bells, m⟩ ch (A.maxBlows / 2 + 1) (2 ^ 64 - 1)
      else .ok false
    pure (!bad)

/-- The tests of `new_midlead_change` (search.cpp:1183-1220) after --start-at and --prefix. -/
def testsC (A : Args) (T : Tests) (m : List Change) (ch : Change) : Out Bool := do
  let depth := m.length
  let n := A.leadLen
  let a ← tryMidleadC A T m ch
  if !a then pure false
  else if A.huntBells ≠ 0 ∧ A.skewsym ∧ n % 4 = 0 ∧ depth % (n / 2) = n / 4 - A.huntBells % 2 ∧
      ¬ tryQuarterlead A m ch then pure false
  else do
    let b ← if (A.huntBells % 2 = 1 ∧ depth + 1 = n / 2) ∨
        (A.huntBells ≠ 0 ∧ A.huntBells % 2 = 0 ∧ depth + 1 = n / 2 + divLen A / 2) then tryHalfleadSymC A m ch
      else .ok true
    if !b then pure false
    else if depth + 1 = n ∧ ¬ tryLeadend A m ch then pure false
    else if (symOffset A = 0 ∧ depth + 1 = n) ∨ (symOffset A ≠ 0 ∧ depth + 1 = symOffset A) then tryLeadendSymC A m ch
    else pure true

/-! ### The recursion -/

/-- `first.bells() != 0 && compare_changes(*i, first)` (search.cpp:1171). -/
def beforeStart (first : Option Change) (ch : Change) : Out Bool :=
  match first with
  | none => .ok false
  | some f => if f.n ≠ 0 then compareChangesC ch f else .ok false

/-- `args.prefix.size() > m.size() && ch != args.prefix[m.size()]` (search.cpp:1176). -/
def offPrefix (A : Args) (m : List Change) (ch : Change) : Bool :=
  match A.prefixCh[m.length]? with
  | some p => !Change.eq ch p
  | none => false

/-- `call_recurse` (search.cpp:655-666); `rec` is `general_recurse`. -/
def callRecurse (A : Args) (T : Tests) (rec : St → Out St) (ch : Change) (s : St) : Out St := do
  let p := push A T s ch
  let s2 ← if p.2 then rec p.1 else .ok p.1
  pure (pop A s2)

/-- The loop of `new_midlead_change` (search.cpp:1166-1229). -/
def tryAll (A : Args) (T : Tests) (rec : St → Out St) (first : Option Change) : List Change → St → Out St
  | [], s => .ok s
  | ch :: cs, s => do
    let skip ← beforeStart first ch
    if skip then tryAll A T rec first cs s
    else if offPrefix A s.m ch then tryAll A T rec first cs s
    else do
      let ok ← testsC A T s.m ch
      if ok then do
        let s2 ← callRecurse A T rec ch s
        tryAll A T rec first cs s2
      else tryAll A T rec first cs s

/-- `new_midlead_change` (search.cpp:1137-1230), without --random.  `at` throws outside the vector, and
the list must not be empty. -/
def newMidlead (A : Args) (T : Tests) (rec : St → Out St) (s : St) : Out St :=
  let i := if A.huntBells ≠ 0 ∨ A.leadLen ≠ 0 then s.m.length else s.m.length % 2
  match A.allowed[i]? with
  | none => .throw .outOfRange
  | some [] => .ub
  | some cs =>
    match s.startmeth with
    | [] => tryAll A T rec none cs s
    | f :: fs => tryAll A T rec (some f) cs { s with startmeth := fs }

/-- `ok = ok && push_change(...)` over the changes of a list. -/
def pushAll (A : Args) (T : Tests) : List Change → St → St × Bool
  | [], s => (s, true)
  | c :: cs, s => let p := push A T s c; if p.2 then pushAll A T cs p.1 else p

/-- `while (ok && m.length() < end) ok = push_change(m[c - m.length()].reverse());` (search.cpp:1402-1404,
1457-1459). -/
def rotLoop (A : Args) (T : Tests) (c stop : Nat) : (fuel : Nat) → St → Out (St × Bool)
  | 0, s => if s.m.length < stop then .timeout else .ok (s, true)
  | fuel + 1, s =>
    if s.m.length < stop then
      if c < s.m.length then .ub
      else do
        let x ← vget s.m (c - s.m.length)
        let p := push A T s x.reverse
        if p.2 then rotLoop A T c stop fuel p.1 else pure p
    else .ok (s, true)

/-- The loop of `double_existing` over the second half lead without the lead end (search.cpp:1264-1265). -/
def doubleLoop (A : Args) (T : Tests) (hl : Nat) : (fuel : Nat) → St → Out (St × Bool)
  | 0, s => if s.m.length + 1 < A.leadLen then .timeout else .ok (s, true)
  | fuel + 1, s =>
    if s.m.length + 1 < A.leadLen then do
      let x ← vget s.m (s.m.length - hl)
      let p := push A T s x.reverse
      if p.2 then doubleLoop A T hl fuel p.1 else pure p
    else .ok (s, true)

/-- The test for blows across the half lead at the start of `double_existing` (search.cpp:1235-1255). -/
def doubleBlows (A : Args) (m : List Change) (back : Change) : Bool :=
  (List.range A.bells).any fun i => back.findplace i &&
    (let count := countRun (fun c => c.findplace i) (A.maxBlows + 1) m.dropLast.reverse 2
     let count := countRun (fun c => c.reverse.findplace i) (A.maxBlows + 1) m count
     decide (count > A.maxBlows))

/-- The test for blows across the lead end in `double_existing` (search.cpp:1270-1285); here the loops
have no bound on `count`. -/
def doubleEndBlows (A : Args) (m : List Change) (ch : Change) : Bool :=
  (List.range A.bells).any fun i => ch.findplace i &&
    (decide (2 + (m.reverse.takeWhile fun c => c.findplace i).length + (m.takeWhile fun c => c.findplace i).length
      > A.maxBlows))

/-- `double_existing` (search.cpp:1233-1293).  `m.back()` of no changes is undefined; the assertions
on the lengths are undefined behaviour if they fail. -/
def doubleExisting (A : Args) (T : Tests) (rec : St → Out St) (s : St) : Out St :=
  match s.m.getLast? with
  | none => .ub
  | some back =>
    if A.maxBlows ≠ 0 ∧ doubleBlows A s.m back then .ok s
    else if A.leadLen % 2 ≠ 0 ∨ s.m.length ≠ A.leadLen / 2 then .ub
    else do
      let hl := A.leadLen / 2
      let (s1, ok) ← doubleLoop A T hl A.leadLen s
      let x ← vget s1.m (hl - 1)
      let ch := x.reverse
      let ok := ok && !(A.maxBlows ≠ 0 && doubleEndBlows A s1.m ch)
      let s2 ← if ok then
          (let p := push A T s1 ch
           if p.2 then rec p.1 else .ok p.1)
        else .ok s1
      pure (popTo A hl s2.m.length s2)

/-- `general_recurse` (search.cpp:1340-1472).  `qlead_sym_pt + 1` is `n / 4 + sym_offset`, and so on;
the assertion on `div_start` is undefined behaviour if it fails. -/
def general (A : Args) (T : Tests) : (fuel : Nat) → St → Out St
  | 0, _ => .timeout
  | fuel + 1, s =>
    let depth := s.m.length
    let n := A.leadLen
    let so := symOffset A
    let e := if n % 4 = 0 then 0 else 1
    if s.divStart + depth % divLen A ≠ depth then .ub
    else if A.limit ≠ 0 ∧ A.limit ≠ 2 ^ 64 - 1 ∧ s.count = A.limit then .ok s
    else if depth = n then
      .ok (if T.accept s.m then { s with out := s.out ++ [s.m], count := s.count + 1 } else s)
    else if A.floatingSym then newMidlead A T (general A T fuel) s
    else if A.skewsym ∧ depth = n / 4 + so ∧ n > 4 then do
      let stop := if A.doubsym ∧ so ≠ 0 then n / 2 else if so ≠ 0 then n / 2 - 1 + so + so else n / 2 - 1
      let (s1, ok) ← rotLoop A T (2 * (n / 4 + so) + e - 2) stop n s
      let s2 ← if ok then general A T fuel s1 else .ok s1
      pure (popTo A depth s2.m.length s2)
    else if A.doubsym ∧ depth = n / 2 then doubleExisting A T (general A T fuel) s
    else if A.sym ∧ depth = n / 2 + so ∧ n > 2 then
      if A.skewsym ∨ A.doubsym then .ub
      else do
        let k := if so ≠ 0 then 2 * so - 1 else 0
        let (s1, ok) := pushAll A T ((s.m.drop k).dropLast.reverse) s
        let s2 ← if ok then general A T fuel s1 else .ok s1
        pure (popTo A depth s2.m.length s2)
    else if A.sym ∧ so > 1 ∧ depth = so then do
      let (s1, ok) := pushAll A T (s.m.dropLast.reverse) s
      let s2 ← if ok then general A T fuel s1 else .ok s1
      pure (popTo A depth s2.m.length s2)
    else if A.skewsym ∧ depth = 3 * n / 4 + so ∧ n > 4 then
      if A.doubsym ∨ A.sym then .ub
      else do
        let (s1, ok) ← rotLoop A T (2 * (3 * n / 4 + so) + e - 2) n n s
        let s2 ← if ok then general A T fuel s1 else .ok s1
        pure (popTo A depth s2.m.length s2)
    else newMidlead A T (general A T fuel) s

/-- The search (`run_search`, search.cpp:264-285): the methods given to `output_method`, in
order.  The assertion that no change is left is undefined behaviour if it fails. -/
def searchC (A : Args) (T : Tests) : Out (List (List Change)) := do
  let s ← general A T (A.leadLen + 2) ⟨[], 0, A.start, 0, []⟩
  if s.m.length = 0 then pure s.out else .ub

end MethSearch
end Ringing
