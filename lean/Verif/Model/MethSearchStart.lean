import Verif.Model.MethSearch
/-!
The methods before the one given with --start-at (apps/methsearch/search.cpp:429-433).  The changes of
that method that `new_midlead_change` uses up are in `Args.start` of `Verif.Model.MethSearch`.
-/
namespace Ringing
namespace MethSearch
open MethodUtils

/-- `lexicographical_compare` with `compare_changes` (search.cpp:431-433). -/
def lexBeforeC : List Change → List Change → Out Bool
  | _, [] => .ok false
  | [], _ :: _ => .ok true
  | a :: as, b :: bs => do
    let l ← compareChangesC a b
    if l then pure true
    else do
      let g ← compareChangesC b a
      if g then pure false else lexBeforeC as bs

/-- `is_acceptable_method` with --start-at (search.cpp:429-433): a method before that one is not
accepted; the other tests are those of `T`. -/
def startTests (T : Tests) (start : List Change) : Tests :=
  { T with accept := fun m => (match lexBeforeC m start with | .ok b => !b | _ => false) && T.accept m }

end MethSearch
end Ringing
