import Verif.Spec.MethodUtils
/-
Specification of the search for methods of apps/methsearch/search.cpp.
-/
namespace Spec

/-- With one hunt bell (or none), the places of a lead of `n` changes that are determined by another
one: position `k` repeats position `j`, turned upside down if the flag is set.  Palindromic methods
are symmetric about the half lead, the second half of a double method is the first upside down, the
two halves of a method with rotational symmetry are symmetric about the quarter leads. -/
def copied (sym skew doub : Bool) (n k : Nat) : Option (Nat × Bool) :=
  if skew = true ∧ n > 4 ∧ n / 4 ≤ k ∧ k + 1 < n / 2 then some (n / 2 - 2 - k, true)
  else if doub = true then (if n / 2 ≤ k then some (k - n / 2, true) else none)
  else if skew = true then (if n > 4 ∧ 3 * n / 4 ≤ k then some (3 * n / 2 - 2 - k, true) else none)
  else if sym = true ∧ n > 2 ∧ n / 2 ≤ k ∧ k + 1 < n then some (n - 2 - k, false)
  else none

/-- `x` comes before `y` if at the first difference its change comes before in the list of changes
allowed there. -/
def Before {α : Type} (allowed : List (List α)) (x y : List α) : Prop :=
  ∃ k a b, x.take k = y.take k ∧ x[k]? = some a ∧ y[k]? = some b ∧ [a, b].Sublist (allowed.getD k [])

/-- A lead of `n` changes: every change that is determined by another one is that change, possibly turned
upside down with `rev`; the others may be chosen after the changes before them; and the changes rung are
accepted at all times. -/
def LeadOf {α : Type} (n : Nat) (rev : α → α) (copied : Nat → Option (Nat × Bool)) (free : List α → α → Prop)
    (row : List α → Prop) (full : List α) : Prop :=
  full.length = n ∧ ∀ k, k < n → row (full.take (k + 1)) ∧
    match copied k with
    | some (j, r) => ∃ d, full[j]? = some d ∧ full[k]? = some (if r then rev d else d)
    | none => ∃ c, full[k]? = some c ∧ free (full.take k) c

/-- The run of `k` or more changes with a place in position `p` in the lead repeated for ever. -/
def LongPlace (b k : Nat) (css : List (List Nat)) : Prop :=
  ∃ (p : Nat) (i : Int), ∀ j : Nat, j < k → IsPlace b (around css (i + j)) p

end Spec
