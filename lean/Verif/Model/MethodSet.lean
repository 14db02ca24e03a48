import Verif.Model.Library
import Verif.Model.Group
/-
Model of the in-memory method library `methodset` (ringing/methodset.h, ringing/methodset.cpp).

Only the facet `litelib::payload` is modelled (`map` of facets with one possible key).  A `set<entry>` is a list
in the order of the set, and an iterator into it is the part of the list from that element on.
-/
namespace Ringing.Lib

/-- `methodset::impl::entry` (methodset.cpp:44-62). -/
structure SetEntry where
  meth : Named
  payload : Option Str := none
  deriving DecidableEq, Repr

/-- `operator<` of `vector<change>`, which `method` derives from (method.h:50): `std::lexicographical_compare`. -/
def vecLt : List Change → List Change → Bool
  | _, [] => false
  | [], _ :: _ => true
  | x :: xs, y :: ys => if Change.lt x y then true else if Change.lt y x then false else vecLt xs ys

/-- The order of the `set<entry>` (methodset.cpp:50, 108). -/
def entryLt (a b : SetEntry) : Bool := vecLt a.meth.m.ch b.meth.m.ch

/-- `methodset::impl` (methodset.cpp:41-112): `keep` is whether the facet is in `facet_ids`. -/
structure MethodSet where
  data : List SetEntry := []
  keep : Bool := false
  deriving DecidableEq, Repr

namespace MethodSet

/-- `methodset::append(method const&)` (methodset.cpp:119-122, 194-197). -/
def appendMethod (s : MethodSet) (m : Named) : MethodSet :=
  { s with data := (Group.setInsert entryLt ⟨m, none⟩ s.data).1 }

/-- `methodset::append(library_entry const&)` (methodset.cpp:114-117, 124-133). -/
def appendEntry (s : MethodSet) (v : View) : Out MethodSet :=
  v.meth >>= fun m => .ok { s with data := (Group.setInsert entryLt ⟨m, if s.keep then v.payload else none⟩ s.data).1 }

/-- `methodset::append(first, last)` (methodset.h:76-81), with the number of entries it returns. -/
def appendAll (s : MethodSet) : (vs : List View) → (n : Nat) → Out (MethodSet × Nat)
  | [], n => .ok (s, n)
  | v :: vs, n => appendEntry s v >>= fun s' => appendAll s' vs (n + 1)

/-- `methodset::store_facet` (methodset.cpp:103, 199-202). -/
def storeFacet (s : MethodSet) : MethodSet := { s with keep := true }

/-- `methodset::clear` (methodset.cpp:100, 184-187). -/
def clear (s : MethodSet) : MethodSet := { s with data := [] }

/-- `methodset::size` (methodset.cpp:101, 189-192). -/
def size (s : MethodSet) : Nat := s.data.length

/-- The functions of `methodset::impl::entry_ref` (methodset.cpp:74-84). -/
def view : List SetEntry → View
  | [] => { name := .ub, baseName := .ub, pn := .ub, bells := 0 }
  | e :: _ => {
    name := .ok e.meth.name
    baseName := .ok e.meth.name
    pn := Method.formatC e.meth.m (Method.M_SYMMETRY ||| Method.M_DASH)
    bells := e.meth.m.b
    payload := e.payload
    own := some e.meth }

/-- `set<entry>::find`: the first element that is not less, if it is not greater. -/
def findIn (e : SetEntry) : List SetEntry → List SetEntry
  | [] => []
  | x :: xs => if entryLt x e then findIn e xs else if entryLt e x then [] else x :: xs

/-- `methodset::impl::find(method const&)` (methodset.cpp:175-182); `none` is a null entry. -/
def find (s : MethodSet) (m : Named) : Option View :=
  match findIn ⟨m, none⟩ s.data with
  | [] => none
  | i => some (view i)

/-- `set_facet<litelib::payload>` on the entry that `find` gives (methodset.cpp:54-55, 83-84): it changes the
element of the set.  A null entry cannot be used. -/
def setPayload (s : MethodSet) (m : Named) (p : Str) : Out MethodSet :=
  match findIn ⟨m, none⟩ s.data with
  | [] => .ub
  | e :: i => .ok { s with data := s.data.take (s.data.length - (i.length + 1)) ++ { e with payload := some p } :: i }

end MethodSet

/-- `methodset` as a library: `entry_ref::readentry` (methodset.cpp:143-163).  The state of an entry is `valid` and
the iterator; `++` on the end is not defined. -/
def mset : Library MethodSet (Option (List SetEntry)) where
  start s := s
  fresh _ := none
  read e s :=
    match e with
    | some [] => .ub
    | some (_ :: i) => .ok (if i = [] then (false, none, s) else (true, some i, s))
    | none => .ok (if s.data = [] then (false, none, s) else (true, some s.data, s))
  view e := MethodSet.view (e.getD [])

end Ringing.Lib
