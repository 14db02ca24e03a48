import Verif.Model.Extent
import Mathlib.Data.Nat.Factorial.Basic
import Verif.Model.NamedRows
import Verif.Model.Sort
/-
Model of class `group` (ringing/group.h, ringing/group.cpp).

`std::set` is a strictly increasing list.  Products of rows use the pure `Row.mul`, which C49 proves
equal to the checked code.  Groups of `2^32` or more rows are outside the model's faithfulness
(`size_t` sizes do not wrap here).
-/
namespace Ringing

/-- `group` (group.h:113-116): the number of bells, the elements and the orbits. -/
structure Group where
  b : Nat
  v : List Row
  o : List (List Nat)
  deriving DecidableEq, Repr

namespace Group

/-- `set<row>::insert` or `set<bell>::insert` for the order `lt`: the new set and whether the element
was inserted (used at group.cpp:64 and 329). -/
def setInsert {α : Type} (lt : α → α → Bool) (a : α) : List α → List α × Bool
  | [] => ([a], true)
  | x :: s =>
    if lt x a then (x :: (setInsert lt a s).1, (setInsert lt a s).2)
    else if lt a x then (a :: x :: s, true)
    else (x :: s, false)

/-- The `for` loop over the generators in `generate_group` (group.cpp:59-66).  The vector `x` is kept
with its back at the head of the list. -/
def genLoop (r : Row) : (gens : List Row) → (s x : List Row) → List Row × List Row
  | [], s, x => (s, x)
  | g :: gs, s, x =>
    let r2 := Row.mul r g
    let si := setInsert Row.lt r2 s
    genLoop r gs si.1 (if si.2 then r2 :: x else x)

/-- The `while` loop of `generate_group` (group.cpp:56-67). -/
def genWhile (gens : List Row) : (fuel : Nat) → (s x : List Row) → Out (List Row)
  | 0, _, _ => .timeout
  | _ + 1, s, [] => .ok s
  | fuel + 1, s, r :: x => genWhile gens fuel (genLoop r gens s x).1 (genLoop r gens s x).2

/-- `generate_group` (group.cpp:51-68) with an empty set, from rounds on `b` bells.  The step budget is
proved to be sufficient. -/
def generateC (b : Nat) (gens : List Row) : Out (List Row) :=
  genWhile gens (b.factorial + 2) [] [Row.roundsC b]

/-- `orbs[j].insert( (*i)[j] )` for all elements (group.cpp:326-328), for one `j`. -/
def orbitC (j : Nat) : (v : List Row) → (s : List Nat) → Out (List Nat)
  | [], s => .ok s
  | r :: v, s => vget r j >>= fun x => orbitC j v (setInsert (fun a b => decide (a < b)) x s).1

/-- The second loop of `calc_orbit_space` (group.cpp:331-335), merged with the first. -/
def orbitsC (v : List Row) : (k j : Nat) → (o : List (List Nat)) → Out (List (List Nat))
  | 0, _, o => .ok o
  | k + 1, j, o => orbitC j v [] >>= fun oj =>
    orbitsC v k (j + 1) (if o.contains oj then o else o ++ [oj])

/-- A group with its orbits calculated: `calc_orbit_space` (group.cpp:322-336). -/
def withOrbitsC (b : Nat) (v : List Row) : Out Group :=
  orbitsC v b 0 [] >>= fun o => .ok ⟨b, v, o⟩

/-- `group()` (group.h:52). -/
def trivial0 : Group := ⟨0, [[]], []⟩

/-- `group(row)` (group.cpp:166-174). -/
def ofRowC (gen : Row) : Out Group := generateC gen.length [gen] >>= withOrbitsC gen.length

/-- `group(row, row)` (group.cpp:176-190). -/
def ofRowsC (g1 g2 : Row) : Out Group :=
  let b := if g1.length > g2.length then g1.length else g2.length
  generateC b (if g2 ≠ g1 then [g1, g2] else [g1]) >>= withOrbitsC b

/-- `sort` (group.cpp:200, 231, 252): the rows in increasing order (equal rows cannot be told apart, so
the result is determined). -/
def sortRows (l : List Row) : List Row := sortBy (fun a b => !Row.lt b a) l

/-- `unique` and `erase` (group.cpp:201-202): adjacent equal rows are removed. -/
def unique : List Row → List Row
  | [] => []
  | [a] => [a]
  | a :: b :: l => if a = b then unique (b :: l) else a :: unique (b :: l)

/-- `group(vector<row>)` (group.cpp:192-214). -/
def ofVectorC (gens : List Row) : Out Group :=
  if gens.isEmpty then .ok ⟨0, [[]], []⟩
  else
    let gs := unique (sortRows gens)
    let b := gs.foldl (fun b g => if g.length > b then g.length else b) 0
    generateC b gs >>= withOrbitsC b

/-- `group::conjugate` (group.cpp:216-235). -/
def conjugateC (g : Group) (r : Row) : Out Group :=
  let ri := Row.inverse r
  withOrbitsC g.b (sortRows (g.v.map fun x => Row.mul (Row.mul ri x) r))

/-- The rows of sign +1 (group.cpp:245-248). -/
def evenRowsC : List Row → Out (List Row)
  | [] => .ok []
  | r :: v => Row.signC r >>= fun s => evenRowsC v >>= fun l => .ok (if s = 1 then r :: l else l)

/-- `group::even_subgroup` (group.cpp:237-255). -/
def evenSubgroupC (g : Group) : Out Group := evenRowsC g.v >>= fun l => withOrbitsC g.b (sortRows l)

/-- `group::direct_product` (group.cpp:153-164). -/
def directProductC (a b : Group) : Out Group :=
  conjugateC b (Row.cyclicC (a.b + b.b) 0 (-(a.b : Int))) >>= fun b2 => ofVectorC (a.v ++ b2.v)

/-- `copy( first, end, back_inserter(v) )` (group.cpp:105, 118): the rows visited by an iterator with
the increment `step`. -/
def copyC (step : ExtIter → Out ExtIter) : (fuel : Nat) → ExtIter → Out (List Row)
  | 0, _ => .timeout
  | fuel + 1, it => if it.fin then .ok [] else
    step it >>= fun it' => copyC step fuel it' >>= fun l => .ok (it.r :: l)

/-- `group::symmetric_group` (group.cpp:98-109). -/
def symmetricC (nw nh nt : Nat) : Out Group :=
  let nt := if nt = 0 then nh + nw else nt
  copyC (ExtIter.incC nw nh) (nw.factorial + 1) (ExtIter.start nt) >>= withOrbitsC nt

/-- `group::alternating_group` (group.cpp:111-122). -/
def alternatingC (nw nh nt : Nat) : Out Group :=
  let nt := if nt = 0 then nh + nw else nt
  copyC (Extent.incIncourseC nw nh 3) (nw.factorial + 1) (ExtIter.start nt) >>= withOrbitsC nt

/-- `group::trivial` (group.cpp:124-127). -/
def trivialC (nt : Nat) : Out Group := ofRowC (Row.roundsC nt)

/-- `group::cyclic_c` (group.cpp:141-145). -/
def cyclicCC (nw nh nt : Nat) : Out Group :=
  let nt := if nt = 0 then nh + nw else nt
  ofRowsC (Row.cyclicC (nh + nw) nh 1) (Row.roundsC nt)

/-- `group::cyclic_r` (group.cpp:147-151). -/
def cyclicRC (nw nh nt : Nat) : Out Group :=
  let nt := if nt = 0 then nh + nw else nt
  Row.pblhC (nh + nw) nh >>= fun p => ofRowsC p (Row.roundsC nt)

/-- `group::dihedral_c` (group.cpp:129-133). -/
def dihedralCC (nw nh nt : Nat) : Out Group :=
  let nt := if nt = 0 then nh + nw else nt
  Row.reverseRounds3C nw nh nt >>= fun q => ofRowsC (Row.cyclicC (nh + nw) nh 1) q

/-- `group::dihedral_r` (group.cpp:135-139). -/
def dihedralRC (nw nh nt : Nat) : Out Group :=
  let nt := if nt = 0 then nh + nw else nt
  Row.pblhC (nh + nw) nh >>= fun p => Row.reverseRounds3C nw nh nt >>= fun q => ofRowsC p q

/-- The loop of `is_direct_product_of_symmetric_groups` (group.cpp:81-92), `size_t` of 64 bits;
`factorial` has 32 bits. -/
def productLoop (gsize : Nat) : (o : List (List Nat)) → (sz : Nat) → Bool
  | [], sz => sz == gsize
  | x :: o, sz =>
    if x.length > 20 then false
    else
      let f := factorialC x.length
      if f > (2 ^ 64 - 1) / sz then false
      else if sz * f > gsize then false
      else productLoop gsize o (sz * f)

/-- `is_direct_product_of_symmetric_groups` (group.cpp:70-95). -/
def isProduct (o : List (List Nat)) (gsize : Nat) : Bool := productLoop gsize o 1

/-- One orbit in the fast path of `rcoset_label` (group.cpp:284-294): `label[ v[j] ] = (*i)[j]`, with
`v` the sorted positions of the orbit's bells. -/
def labelOrbitC (r : Row) (orb : List Nat) (label : List Nat) : Out (List Nat) :=
  let v := sortBy (fun a b => decide (a ≤ b)) (orb.map fun x => Row.find r x)
  forUp 0 orb.length label fun label j => do
    let p ← vget v j
    let x ← vget orb j
    vset label p x

/-- The loop over the orbits (group.cpp:282-295). -/
def labelOrbitsC (r : Row) : List (List Nat) → List Nat → Out (List Nat)
  | [], label => .ok label
  | orb :: o, label => labelOrbitC r orb label >>= labelOrbitsC r o

/-- The slow loops of the coset labels (group.cpp:301-307, 312-319). -/
def leastLoop : List Row → (label : Row) → Row
  | [], label => label
  | x :: l, label => leastLoop l (if label.length = 0 ∨ Row.lt x label then x else label)

/-- `group::rcoset_label` (group.cpp:272-308). -/
def rcosetLabelC (g : Group) (r : Row) : Out Row :=
  if g.v.length = 1 then .ok r
  else if g.v.length ≥ 6 ∧ isProduct g.o g.v.length then
    labelOrbitsC r g.o (List.replicate r.length 0) >>= Row.ofVectorC
  else .ok (leastLoop (g.v.map fun x => Row.mul x r) [])

/-- `group::lcoset_label` (group.cpp:310-320). -/
def lcosetLabel (g : Group) (r : Row) : Row := leastLoop (g.v.map fun x => Row.mul r x) []

/-- `group::invariants` (group.cpp:338-349).  The orbits are empty only on no bells. -/
def invariants (g : Group) : List Nat := (g.o.filter fun x => x.length == 1).map fun x => x.headD 0

/-- `operator==` (group.cpp:257-260). -/
def eq (a b : Group) : Bool := decide (a.b = b.b) && decide (a.v = b.v)

/-- `vector<row>::operator<`: lexicographical comparison by `row::operator<`. -/
def ltRows : List Row → List Row → Bool
  | _, [] => false
  | [], _ :: _ => true
  | x :: xs, y :: ys => if Row.lt x y then true else if Row.lt y x then false else ltRows xs ys

/-- `operator<` (group.cpp:262-265). -/
def lt (a b : Group) : Bool := decide (a.b < b.b) || (decide (a.b = b.b) && ltRows a.v b.v)

/-- `operator>` (group.cpp:267-270). -/
def gt (a b : Group) : Bool := decide (a.b > b.b) || (decide (a.b = b.b) && ltRows b.v a.v)

end Group
end Ringing
