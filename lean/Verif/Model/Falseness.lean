import Verif.Model.Group
import Verif.Model.Method
/-
Model of class `falseness_table` and of the table of class `false_courses` (ringing/falseness.h,
ringing/falseness.cpp).  The symbols of false course heads are in Model/FalseSymbols.lean.
-/
namespace Ringing
namespace Falseness

/-- `falseness_table::in_course_only` (falseness.h:57), also `false_courses::in_course_only`
(falseness.h:108). -/
def IN_COURSE_ONLY : Nat := 0x01
/-- `falseness_table::no_fixed_treble` (falseness.h:58). -/
def NO_FIXED_TREBLE : Nat := 0x02
/-- `falseness_table::half_lead_only` (falseness.h:59). -/
def HALF_LEAD_ONLY : Nat := 0x04
/-- `falseness_table::out_of_course_only` (falseness.h:60). -/
def OUT_OF_COURSE_ONLY : Nat := 0x08
/-- `false_courses::tenors_together` (falseness.h:109). -/
def TENORS_TOGETHER : Nat := 0x02

/-- `flags & bit`. -/
abbrev has (flags bit : Nat) : Bool := Method.has flags bit

/-- The range of rows used (falseness.cpp:78-80). -/
def part (flags : Nat) (m : List Row) : List Row :=
  if has flags HALF_LEAD_ONLY then m.take (m.length / 2) else m

/-- The three tests on `f` (falseness.cpp:87-94): whether it is inserted.  `f[0]` of the empty row is
undefined behaviour. -/
def keepC (flags : Nat) (f : Row) : Out Bool :=
  (if has flags NO_FIXED_TREBLE then .ok true else vget f 0 >>= fun x => .ok (decide (x = 0))) >>= fun k1 =>
  if k1 = false then .ok false
  else (if has flags IN_COURSE_ONLY then Row.signC f >>= fun s => .ok (decide (s ≠ -1)) else .ok true)
    >>= fun k2 =>
  if k2 = false then .ok false
  else if has flags OUT_OF_COURSE_ONLY then Row.signC f >>= fun s => .ok (decide (s ≠ 1)) else .ok true

/-- The inner loop of `falseness_table::init` (falseness.cpp:84-97). -/
def innerC (flags : Nat) (a : Row) : List Row → (fs : List Row) → Out (List Row)
  | [], fs => .ok fs
  | b :: bs, fs =>
    Row.divC a b >>= fun f =>
    keepC flags f >>= fun k =>
    innerC flags a bs (if k then (Group.setInsert Row.lt f fs).1 else fs)

/-- The outer loop of `falseness_table::init` (falseness.cpp:82-98). -/
def outerC (flags : Nat) (m2 : List Row) : List Row → (fs : List Row) → Out (List Row)
  | [], fs => .ok fs
  | a :: as, fs => innerC flags a m2 fs >>= outerC flags m2 as

/-- `falseness_table::init` (falseness.cpp:69-103): the table. -/
def initC (flags : Nat) (m1 m2 : List Row) : Out (List Row) :=
  outerC flags (part flags m2) (part flags m1) []

/-- The rows of the lead of a method (falseness.cpp:105-111, 116, 124, 131-132). -/
def leadC (flags : Nat) (m : Method) : Out (List Row) :=
  RowBlock.ofChangesC m.ch (has flags HALF_LEAD_ONLY) true >>= fun rb => .ok rb.rows

/-- `falseness_table(method, int)` (falseness.cpp:113-118). -/
def ofMethodC (m : Method) (flags : Nat) : Out (List Row) :=
  leadC flags m >>= fun rb => initC flags rb rb

/-- `falseness_table(method, vector<row>, int)` (falseness.cpp:120-125). -/
def ofMethodRowsC (a : Method) (b : List Row) (flags : Nat) : Out (List Row) :=
  leadC flags a >>= fun rb => initC flags rb b

/-- `falseness_table(method, method, int)` (falseness.cpp:127-132). -/
def ofMethodsC (a b : Method) (flags : Nat) : Out (List Row) :=
  leadC flags a >>= fun ra => leadC flags b >>= fun rb => initC flags ra rb

/-- The quotients pushed back in `generate_group` (falseness.cpp:146-151), with the assertion. -/
def quotientsC (t : List Row) : List Row → (acc : List Row) → Out (List Row)
  | [], acc => .ok acc
  | a :: as, acc => go a t acc >>= quotientsC t as
where
  /-- the inner loop -/
  go (a : Row) : List Row → (acc : List Row) → Out (List Row)
  | [], acc => .ok acc
  | b :: bs, acc =>
    Row.divC a b >>= fun q => Row.signC q >>= fun s =>
    if s = 1 then go a bs (acc ++ [q]) else .ub

/-- `falseness_table::generate_group` (falseness.cpp:141-153) for a table `t` constructed with the
flags. -/
def generateGroupC (flags : Nat) (t : List Row) : Out Group :=
  if has flags OUT_OF_COURSE_ONLY then quotientsC t t [] >>= Group.ofVectorC else Group.ofVectorC t

/-! ### False course heads -/

/-- `while ( c[ f.bells() - 1 ] != f.bells() - 1 ) c *= fc.lh;` (falseness.cpp:182-183), `n` being
`f.bells()`. -/
def courseC (lh : Row) (n : Nat) : (fuel : Nat) → (c : Row) → Out Row
  | 0, _ => .timeout
  | fuel + 1, c =>
    vget c (n - 1) >>= fun x =>
    if x ≠ n - 1 then Row.mulC c lh >>= courseC lh n fuel else .ok c

/-- `are_tenors_together( r, 6 )` (falseness.cpp:54-61). -/
def tenorsTogether (r : Row) : Bool :=
  (List.range' 6 (r.length - 6)).all fun i => decide (r.getD i 0 = i)

/-- The tests of falseness.cpp:185-190 and the insertion. -/
def insertC (flags : Nat) (c : Row) (fs : List Row) : Out (List Row) :=
  (if has flags IN_COURSE_ONLY then Row.signC c >>= fun s => .ok (decide (s ≠ -1)) else .ok true) >>= fun k =>
  if k = false then .ok fs
  else if has flags TENORS_TOGETHER ∧ tenorsTogether c = false then .ok fs
  else .ok (Group.setInsert Row.lt c fs).1

/-- The `do` loop of `process` (falseness.cpp:175-194). -/
def leadsLoopC (flags : Nat) (lh f : Row) (cfuel : Nat) : (fuel : Nat) → (lead : Row) → (fs : List Row) →
    Out (List Row)
  | 0, _, _ => .timeout
  | fuel + 1, lead, fs =>
    Row.mulC lead f >>= fun c =>
    Row.mulC lead lh >>= fun lead =>
    courseC lh f.length cfuel c >>= fun c =>
    insertC flags c fs >>= fun fs =>
    if Row.isrounds lead = false then leadsLoopC flags lh f cfuel fuel lead fs else .ok fs

/-- `false_courses::initialiser::process` (falseness.cpp:165-195).  `lh.sign()` and `f.sign()` are
evaluated only with the flag. -/
def processC (fuel flags : Nat) (lh f : Row) (fs : List Row) : Out (List Row) :=
  vget f 0 >>= fun x =>
  if x ≠ 0 then .ok fs
  else
    (if has flags IN_COURSE_ONLY then Row.signC lh >>= fun s => Row.signC f >>= fun t =>
      .ok (decide (s = 1 ∧ t = -1)) else .ok false) >>= fun skip =>
    if skip then .ok fs else leadsLoopC flags lh f fuel fuel [] fs

/-- The inner loop of the constructor (falseness.cpp:218-222). -/
def coursesInnerC (fuel flags : Nat) (lh r1 : Row) : List Change → (r2 : Row) → (fs : List Row) → Out (List Row)
  | [], _, fs => .ok fs
  | c :: cs, r2, fs =>
    Row.divC r1 r2 >>= fun f =>
    processC fuel flags lh f fs >>= fun fs =>
    Row.applyC r2 c >>= fun r2 => coursesInnerC fuel flags lh r1 cs r2 fs

/-- The outer loop of the constructor (falseness.cpp:215-223). -/
def coursesOuterC (fuel flags : Nat) (lh : Row) (m : Method) : List Change → (r1 : Row) → (fs : List Row) →
    Out (List Row)
  | [], _, fs => .ok fs
  | c :: cs, r1, fs =>
    coursesInnerC fuel flags lh r1 m.ch (Row.roundsC m.b) fs >>= fun fs =>
    Row.applyC r1 c >>= fun r1 => coursesOuterC fuel flags lh m cs r1 fs

/-- `false_courses(method, int)` (falseness.cpp:209-226): the table.  `fuel` bounds the numbers of
iterations of the `do` and `while` loops. -/
def falseCoursesC (fuel : Nat) (m : Method) (flags : Nat) : Out (List Row) :=
  Method.lhC m >>= fun lh => coursesOuterC fuel flags lh m m.ch (Row.roundsC m.b) []

end Falseness
end Ringing
