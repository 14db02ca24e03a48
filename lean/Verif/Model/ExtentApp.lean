import Verif.Model.Extent
import Verif.Model.RowCycles
/-! Model of the program `extent` (apps/extent/extent.cpp), without the parsing of its arguments. -/
namespace Ringing
namespace ExtentApp

/-- The loop of `main` (extent.cpp:123-126): the rows written. The end is a default-constructed iterator. -/
def loopC (nw nh : Nat) (inCourse : Bool) : (fuel : Nat) → ExtIter → Out (List Row)
  | 0, _ => .timeout
  | fuel + 1, it =>
    if it.eq ⟨true, []⟩ then .ok []
    else
      (if inCourse then Row.signC it.r >>= fun s => .ok (decide (s > 0)) else .ok true) >>= fun p =>
      ExtIter.incC nw nh it >>= fun it' =>
      loopC nw nh inCourse fuel it' >>= fun rs =>
      .ok (if p then it.r :: rs else rs)

/-- `validate` (extent.cpp:81-98) and the rest of `main` (extent.cpp:120-127); `none` is an error in the arguments. -/
def mainC (bells hunts tenors : Int) (inCourse : Bool) (fuel : Nat) : Out (Option (List Row)) :=
  if bells < 0 ∨ hunts < 0 ∨ tenors < 0 then .ok none
  else if bells < hunts + tenors then .ok none
  else loopC (bells - tenors - hunts).toNat hunts.toNat inCourse fuel (ExtIter.start bells.toNat) >>= fun rs => .ok (some rs)

end ExtentApp
end Ringing
