import Mathlib.Algebra.Group.Subgroup.Lattice
import Mathlib.Algebra.Group.End
import Verif.Spec.Row
import Verif.Spec.Extent
/-
Specification of groups of rows: permutations of all the positions, in Mathlib's sense.
-/
namespace Spec

open Classical in
/-- A row as a permutation of all the positions (bells beyond its end stay at home). -/
noncomputable def permOf (r : List Nat) : Equiv.Perm Nat :=
  if h : Function.Bijective (bellAt r) then Equiv.ofBijective _ h else 1

/-- The subgroup of permutations generated by some rows. -/
noncomputable def generated (gens : List (List Nat)) : Subgroup (Equiv.Perm Nat) :=
  Subgroup.closure {p | ∃ g ∈ gens, p = permOf g}

/-- `v` lists, in increasing order, the rows on `b` bells that belong to the group `G`, and nothing
in `G` is missing. -/
structure Lists (v : List (List Nat)) (b : Nat) (G : Subgroup (Equiv.Perm Nat)) : Prop where
  increasing : v.Pairwise LexLt
  mem : ∀ r, r ∈ v ↔ IsRow r ∧ r.length = b ∧ permOf r ∈ G
  all : ∀ p ∈ G, ∃ r ∈ v, permOf r = p

end Spec
