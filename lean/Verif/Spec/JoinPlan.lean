import Verif.Model.JoinPlan
/-! What a touch by a plan is. -/
namespace Ringing
namespace JoinPlan

/-- The number of the method the plan has for a lead head. -/
def methodAt (S : Search) (h : Row) : Nat := (S.plan.lookup h).getD 0
/-- The lead end of the lead that starts with `h`. -/
def leadEnd (S : Search) (h : Row) : Row := Row.mul h (S.les.getD (methodAt S h) [])
/-- The lead head after it, with the call. -/
def next (S : Search) (h : Row) (c : Nat) : Row := Row.mul (leadEnd S h) (S.calls.getD c [])

/-- The lead heads of the leads rung from `h` with the calls. -/
def heads (S : Search) (h : Row) : List Nat → List Row
  | [] => []
  | c :: cs => h :: heads S (next S h c) cs

/-- The lead head after them. -/
def last (S : Search) (h : Row) : List Nat → Row
  | [] => h
  | c :: cs => last S (next S h c) cs

/-- The number of changes of leads with these lead heads. -/
def length (S : Search) (hs : List Row) : Nat := (hs.map fun h => S.lens.getD (methodAt S h) 0).sum

/-- Two leads have neither lead head nor lead end in common (in either order). -/
def Apart (S : Search) (a b : Row) : Prop := b ≠ a ∧ b ≠ leadEnd S a ∧ leadEnd S b ≠ a ∧ leadEnd S b ≠ leadEnd S a

/-- The calls make a touch: there are some, each is one of the calls allowed, all lead heads are in the plan, no two leads
have a row at the lead end in common, it comes round, it is long enough, and without its last lead shorter than
the greatest length. -/
structure Touch (S : Search) (bells : Nat) (cs : List Nat) : Prop where
  ne : cs ≠ []
  calls : ∀ c ∈ cs, c < S.calls.length
  planned : ∀ h ∈ heads S (Row.rounds bells) cs, (S.plan.lookup h).isSome
  apart : (heads S (Row.rounds bells) cs).Pairwise (Apart S)
  round : last S (Row.rounds bells) cs = Row.rounds bells
  long : S.lo ≤ length S (heads S (Row.rounds bells) cs)
  short : length S (heads S (Row.rounds bells) cs).dropLast < S.hi

/-- The nodes for the leads: that for the method with the call. -/
def nodes (S : Search) (h : Row) : List Nat → List Nat
  | [] => []
  | c :: cs => node S (methodAt S h) c :: nodes S (next S h c) cs

end JoinPlan
end Ringing
