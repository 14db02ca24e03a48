import Verif.Spec.Group
/-
Specification of the symbols of false course heads: two course heads are in the same group when one is the other, or
its inverse, moved by plain bob lead heads and their reflections; a group has the name of one course head in it.
-/
namespace Spec

/-- The first lead head of plain bob on an even number of bells, `13527486...`. -/
def firstLeadHead (b : Nat) : List Nat :=
  (List.range b).map fun i =>
    if i = 0 then 0 else if i = 1 then 2 else if i % 2 = 1 then i - 2 else if i + 2 < b then i + 2 else i + 1

/-- The row `12436587...`: rounds with the pairs from thirds place on exchanged. -/
def seconds (b : Nat) : List Nat :=
  (List.range b).map fun i => if i < 2 then i else if i % 2 = 0 then i + 1 else i - 1

/-- The plain bob lead heads and lead ends: the group generated by the two rows. -/
noncomputable def PlainBob (b : Nat) : Subgroup (Equiv.Perm Nat) := generated [firstLeadHead b, seconds b]

/-- Two course heads are in the same falseness group. -/
def SameGroup (b : Nat) (x y : List Nat) : Prop :=
  ∃ d ∈ PlainBob b, ∃ e ∈ PlainBob b, permOf y = d * permOf x * e ∨ permOf y = d * (permOf x)⁻¹ * e

/-- The row on `b` bells that begins with the given bells, numbered from 1, the rest being in their places. -/
def courseHead (b : Nat) (l : List Nat) : List Nat :=
  (List.range b).map fun i => if i < l.length then l.getD i 0 - 1 else i

/-- One course head of each group with the tenors together, with the name of the group. -/
def standard : List (String × List Nat) :=
  [("A", [1, 2, 3, 4, 5, 6]), ("B1", [1, 2, 4, 3, 6, 5]), ("B2", [1, 2, 3, 6, 5, 4]),
   ("C1", [1, 2, 5, 6, 3, 4]), ("C2", [1, 3, 4, 2, 6, 5]), ("D1", [1, 3, 2, 5, 4, 6]),
   ("D2", [1, 2, 4, 3, 5, 6]), ("E1", [1, 3, 2, 4, 6, 5]), ("E2", [1, 2, 4, 6, 3, 5]),
   ("F1", [1, 3, 2, 6, 5, 4]), ("F2", [1, 2, 4, 5, 6, 3]), ("G", [1, 5, 6, 4, 2, 3]),
   ("H1", [1, 5, 3, 4, 6, 2]), ("H2", [1, 3, 6, 5, 4, 2]), ("I", [1, 5, 4, 6, 3, 2]),
   ("K1", [1, 5, 3, 6, 2, 4]), ("K2", [1, 3, 4, 5, 2, 6]), ("K3", [1, 5, 4, 3, 6, 2]),
   ("L1", [1, 2, 6, 5, 4, 3]), ("L2", [1, 3, 6, 2, 4, 5]), ("M", [1, 2, 3, 5, 6, 4]),
   ("N1", [1, 3, 4, 5, 6, 2]), ("N2", [1, 5, 3, 2, 6, 4]), ("N3", [1, 5, 2, 6, 3, 4]),
   ("O1", [1, 3, 6, 5, 2, 4]), ("O2", [1, 5, 3, 6, 4, 2]), ("P1", [1, 5, 4, 3, 2, 6]),
   ("P2", [1, 5, 6, 3, 4, 2]), ("R", [1, 3, 5, 6, 4, 2]), ("S", [1, 3, 4, 6, 2, 5]),
   ("T1", [1, 2, 4, 5, 3, 6]), ("T2", [1, 3, 2, 5, 6, 4]), ("U1", [1, 3, 4, 2, 5, 6]),
   ("U2", [1, 3, 5, 2, 6, 4]), ("a1", [1, 2, 3, 4, 6, 5]), ("a2", [1, 2, 3, 5, 4, 6]),
   ("b", [1, 2, 5, 6, 4, 3]), ("c", [1, 3, 5, 2, 4, 6]), ("d", [1, 3, 4, 6, 5, 2]), ("e", [1, 3, 6, 4, 2, 5]),
   ("f", [1, 5, 4, 6, 2, 3])]

/-- The names of the groups with split tenors on eight bells. -/
def splitTenors : List (String × List Nat) :=
  [("X", [1, 7, 6, 2, 3, 5, 4, 8]), ("Y", [1, 7, 6, 4, 5, 3, 2, 8]), ("Z", [1, 7, 6, 3, 2, 4, 5, 8])]

/-- The names on `b` bells: on eight bells the letters alone are used, and on ten bells the groups B1 and D1 are one,
called B1. -/
def groups (b : Nat) : List (List Char × List Nat) :=
  if b = 8 then (standard ++ splitTenors).map fun g => (g.1.toList.take 1, g.2)
  else standard.map fun g => (if b = 10 ∧ g.1 = "D1" then "B1".toList else g.1.toList, g.2)

/-- The course head is in the group of that name. -/
def HasSymbol (b : Nat) (s : List Char) (r : List Nat) : Prop :=
  ∃ g ∈ groups b, s = g.1 ∧ SameGroup b (courseHead b g.2) r

end Spec
