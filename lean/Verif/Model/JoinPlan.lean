import Verif.Model.Row
/-!
Model of the search for touches where a plan gives the method for each lead head (apps/touchsearch/join_plan_search.cpp).
The rows are those of the library and not their numbers in a `multtab` (for which see C36); the methods are
numbered as by `init_touch_meths` (join_plan_search.cpp:132-150), which is not modelled; the outputer never stops the search.
-/
namespace Ringing
namespace JoinPlan

/-- The members of the context (join_plan_search.cpp:232-251): the method for each lead head, the lead end and the length of
each method, the calls and the lengths asked for. -/
structure Search where
  plan : List (Row × Nat)
  les : List Row
  lens : List Nat
  calls : List Row
  lo : Nat
  hi : Nat

/-- A node of the touch: the changes of a method, the change of a call, or the lead of a method with a call. -/
inductive Item where
  | changes (m : Nat)
  | call (i : Nat)
  | lead (m i : Nat)
  deriving DecidableEq

/-- The nodes of the touch as the constructor makes them (join_plan_search.cpp:145, 152-167; the last of all, `tl`, is left out). -/
def items (S : Search) : List Item :=
  (List.range S.les.length).map Item.changes ++
    (List.range S.calls.length).flatMap fun i => Item.call i :: (List.range S.les.length).map fun m => Item.lead m i

/-- The results of a loop, one after the other. -/
def collect {α : Type} : List (Out (List α)) → Out (List α)
  | [] => .ok []
  | x :: xs => x >>= fun a => collect xs >>= fun b => .ok (a ++ b)

/-- The node of the touch for method `m` with call `i` (join_plan_search.cpp:217, 222, and the order of the nodes at :145, 152-167). -/
def node (S : Search) (m i : Nat) : Nat := S.les.length + m + 1 + i * (S.les.length + 1)

/-- `run_recursive` (join_plan_search.cpp:190-229): the touches given, as the nodes in `comp`. -/
def runC (S : Search) : (fuel : Nat) → (lh : Row) → (depth : Nat) → (leads : List Row) → (comp : List Nat) → Out (List (List Nat))
  | 0, _, _, _, _ => .timeout
  | fuel + 1, lh, depth, leads, comp =>
    match S.plan.lookup lh with
    | none => .ok []
    | some m =>
      let le := Row.mul lh (S.les.getD m [])
      if lh ∈ leads ∨ le ∈ leads then .ok (if S.lo ≤ depth ∧ Row.isrounds lh = true then [comp] else [])
      else if depth < S.hi then
        collect ((List.range S.calls.length).map fun i =>
          runC S fuel (Row.mul le (S.calls.getD i [])) (depth + S.lens.getD m 0) (lh :: le :: leads) (comp ++ [node S m i]))
      else .ok []

/-- `run` (join_plan_search.cpp:169-175). -/
def searchC (S : Search) (fuel bells : Nat) : Out (List (List Nat)) := runC S fuel (Row.rounds bells) 0 [] []

end JoinPlan
end Ringing
