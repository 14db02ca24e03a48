import Verif.Model.FalseSymbols
/-
Model of apps/methsearch/falseness.cpp: whether a method might give an extent with calls of a single
change at the lead end, whether it has a clean proof scale, and its false course heads.  `RINGING_USING_STD`
`map< row, int >` is a function; its keys all have the same number of bells.
-/
namespace Ringing
namespace FalsenessAnalysis
open Falseness

/-- `falseness_analysis::signs` (falseness.cpp:102): the sign of a row, if it has one. -/
abbrev Signs := Row → Option Int

/-- The loop over the falseness table in `falseness_analysis::recurse` (falseness.cpp:86-92). -/
def loopC (rec : Row → Int → Signs → Out (Bool × Signs)) (r : Row) (sign : Int) : List Row → Signs → Out (Bool × Signs)
  | [], m => .ok (true, m)
  | f :: fs, m =>
    if Row.isrounds f = false then
      Row.mulC r f >>= fun q => rec q (-sign) m >>= fun p =>
      if p.1 = false then .ok (false, p.2) else loopC rec r sign fs p.2
    else loopC rec r sign fs m

/-- `falseness_analysis::recurse` (falseness.cpp:78-99), `fuel` bounds the depth of the recursion. -/
def recurseC (t : List Row) : (fuel : Nat) → Row → (sign : Int) → Signs → Out (Bool × Signs)
  | 0, _, _, _ => .timeout
  | fuel + 1, r, sign, m =>
    match m r with
    | none => loopC (recurseC t fuel) r sign t (fun q => if q = r then some sign else m q)
    | some x => .ok (decide (x = sign), m)

/-- The constructor (falseness.cpp:73-76) and the call of `recurse` in the functions below. -/
def analyseC (fuel : Nat) (m : Method) (inCourseOnly : Bool) : Out Bool :=
  ofMethodC m (if inCourseOnly then IN_COURSE_ONLY else 0) >>= fun t =>
  recurseC t fuel (Row.roundsC m.b) 1 (fun _ => none) >>= fun p => .ok p.1

/-- `might_support_positive_extent` (falseness.cpp:105-108). -/
def mightSupportPositiveExtentC (fuel : Nat) (m : Method) : Out Bool := analyseC fuel m true

/-- `might_support_extent` (falseness.cpp:110-114), with the assertion. -/
def mightSupportExtentC (fuel : Nat) (m : Method) : Out Bool :=
  if Method.isplain m 0 = false then .ub else analyseC fuel m false

/-- `is_cps` (falseness.cpp:116-130).  `m.back()` of an empty method is undefined behaviour. -/
def isCpsC (fuel : Nat) (m : Method) : Out Bool :=
  if m.b ≥ 8 then
    falseCoursesC fuel m (IN_COURSE_ONLY ||| TENORS_TOGETHER) >>= fun t => .ok (decide (t.length = 1))
  else
    falseCoursesC fuel m IN_COURSE_ONLY >>= fun t =>
    match m.ch.getLast? with
    | none => .ub
    | some c => if c.sign = 1 then .ok (decide (t.length = 2)) else .ok (decide (t.length = 1))

/-- `falseness_group_codes` (falseness.cpp:47-51), where `c` is the table of symbols that is kept between
calls. -/
def falsenessGroupCodesC (fuel : Nat) (c : Option Table) (m : Method) : Out (List Char) :=
  falseCoursesC fuel m (if m.b = 8 then 0 else TENORS_TOGETHER) >>= fun t =>
  Method.lhC m >>= fun lh => symbolsC c t (if m.b = 8 then 0 else TENORS_TOGETHER) lh

end FalsenessAnalysis
end Ringing
