import Verif.Model.Out
/-
Model of the smart pointers of ringing/pointers.h.

The heap holds objects of type `V` and reference counts; a freed cell stays freed (addresses are not
reused: a simplification, the code compares a pointer only with pointers that are live at that time).
`delete` of a freed cell and any access to a freed cell are undefined behaviour.  The pointer objects of
the program are a list; an operation names them by position; constructing one appends it, destroying
one removes it.  Raw pointers given to a constructor or `reset` are null, fresh (`new T(v)`), or the
pointer's own; giving the same raw pointer to two smart pointers is an error of the caller and not
modelled.  Deletors are the default ones.
-/
namespace Ringing
namespace Ptr

/-- The heap: objects and reference counts; `none` is a freed cell. -/
structure Heap (V : Type) where
  objs : List (Option V)
  rcs : List (Option Int)
  deriving DecidableEq

variable {V : Type}

/-- Reading `*p` for a raw pointer. -/
def Heap.read (h : Heap V) (o : Nat) : Out V :=
  match h.objs[o]? with
  | some (some v) => .ok v
  | _ => .ub

/-- Writing `*p = v`. -/
def Heap.write (h : Heap V) (o : Nat) (v : V) : Out (Heap V) :=
  match h.objs[o]? with
  | some (some _) => .ok { h with objs := h.objs.set o (some v) }
  | _ => .ub

/-- `delete p` (pointers.h:81-84); deleting a null pointer does nothing. -/
def Heap.delete (h : Heap V) : Option Nat → Out (Heap V)
  | none => .ok h
  | some o =>
    match h.objs[o]? with
    | some (some _) => .ok { h with objs := h.objs.set o none }
    | _ => .ub

/-- Reading `*rc`. -/
def Heap.readRc (h : Heap V) (r : Nat) : Out Int :=
  match h.rcs[r]? with
  | some (some n) => .ok n
  | _ => .ub

/-- `*rc = n`. -/
def Heap.writeRc (h : Heap V) (r : Nat) (n : Int) : Out (Heap V) :=
  match h.rcs[r]? with
  | some (some _) => .ok { h with rcs := h.rcs.set r (some n) }
  | _ => .ub

/-- `delete rc`. -/
def Heap.deleteRc (h : Heap V) (r : Nat) : Out (Heap V) :=
  match h.rcs[r]? with
  | some (some _) => .ok { h with rcs := h.rcs.set r none }
  | _ => .ub

/-- `new int(n)`. -/
def Heap.newRc (h : Heap V) (n : Int) : Heap V × Nat := ({ h with rcs := h.rcs ++ [some n] }, h.rcs.length)

/-- The argument of a constructor or `reset`: null or a fresh object. -/
def Heap.newObj (h : Heap V) : Option V → Heap V × Option Nat
  | none => (h, none)
  | some v => ({ h with objs := h.objs ++ [some v] }, some h.objs.length)

/-- A counted pointer: the members `ptr` and `rc` (pointers.h:270-272, 437-438); null is `none`. -/
structure P where
  ptr : Option Nat
  rc : Option Nat
  deriving DecidableEq

/-- The state of a program using counted pointers. -/
structure St (V : Type) where
  heap : Heap V
  ps : List P
  deriving DecidableEq

/-- An operation of the program. -/
inductive Op (V : Type)
  /-- construct from a null or fresh raw pointer; the allocation of the count may fail -/
  | make (src : Option V) (oom : Bool)
  /-- default construction -/
  | dflt
  /-- copy construction from pointer `i` -/
  | copy (i : Nat)
  /-- `p_i.swap(p_j)` -/
  | swap (i j : Nat)
  /-- destruction of pointer `i` -/
  | destroy (i : Nat)
  /-- `p_i = p_j` -/
  | assign (i j : Nat)
  /-- `p_i.reset(src)`; the allocation of a count may fail -/
  | reset (i : Nat) (src : Option V) (oom : Bool)
  /-- `p_i.reset(p_i.get())` -/
  | resetSelf (i : Nat) (oom : Bool)
  /-- `*p_i = v` -/
  | write (i : Nat) (v : V) (oom : Bool)

/-- `std::swap` of two pointer objects (pointers.h:234-237, 394-396). -/
def swapP (ps : List P) (i j : Nat) : Out (List P) := do
  let a ← vget ps i
  let b ← vget ps j
  let ps ← vset ps i b
  vset ps j a

namespace Shared

/-- `shared_pointer(T*)` (pointers.h:208-228): if the count cannot be allocated the object is deleted
and the exception passed on (`true`). -/
def make (s : St V) (src : Option V) (oom : Bool) : Out (St V × Bool) := do
  let (h, p) := s.heap.newObj src
  if oom then do
    let h ← h.delete p
    pure (⟨h, s.ps⟩, true)
  else
    let (h, r) := h.newRc 1
    pure (⟨h, s.ps ++ [⟨p, some r⟩]⟩, false)

/-- `shared_pointer()` (pointers.h:229). -/
def dflt (s : St V) : St V := ⟨s.heap, s.ps ++ [⟨none, none⟩]⟩

/-- The copy constructor (pointers.h:238-240). -/
def copy (s : St V) (i : Nat) : Out (St V) := do
  let o ← vget s.ps i
  match o.rc with
  | some r => do
    let n ← s.heap.readRc r
    let h ← s.heap.writeRc r (n + 1)
    pure ⟨h, s.ps ++ [⟨o.ptr, some r⟩]⟩
  | none => pure ⟨s.heap, s.ps ++ [⟨o.ptr, none⟩]⟩

/-- `~shared_pointer` (pointers.h:231). -/
def destroy (s : St V) (i : Nat) : Out (St V) := do
  let o ← vget s.ps i
  match o.rc with
  | none => pure ⟨s.heap, s.ps.eraseIdx i⟩
  | some r => do
    let n ← s.heap.readRc r
    let h ← s.heap.writeRc r (n - 1)
    if n - 1 = 0 then do
      let h ← h.delete o.ptr
      let h ← h.deleteRc r
      pure ⟨h, s.ps.eraseIdx i⟩
    else pure ⟨h, s.ps.eraseIdx i⟩

/-- `operator=` (pointers.h:241-242): copy, swap, destroy the copy. -/
def assign (s : St V) (i j : Nat) : Out (St V) := do
  let _ ← vget s.ps i
  let s' ← copy s j
  let ps ← swapP s'.ps s.ps.length i
  destroy ⟨s'.heap, ps⟩ s.ps.length

/-- The end of `reset` (pointers.h:254): `*rc = 1; ptr = src;`. -/
def resetEnd (h : Heap V) (ps : List P) (i r : Nat) (src : Option Nat) : Out (St V × Bool) := do
  let h ← h.writeRc r 1
  let ps ← vset ps i ⟨src, some r⟩
  pure (⟨h, ps⟩, false)

/-- The part of `reset` that allocates a new count (pointers.h:249-251), `rc` being the old count, already
decremented: on failure `++*rc; delete src; throw;`. -/
def resetNew (h : Heap V) (ps : List P) (i : Nat) (rc : Option Nat) (src : Option Nat) (oom : Bool) : Out (St V × Bool) :=
  if oom then
    match rc with
    | none => .ub
    | some r => do
      let n ← h.readRc r
      let h ← h.writeRc r (n + 1)
      let h ← h.delete src
      pure (⟨h, ps⟩, true)
  else
    let (h, r) := h.newRc 0
    resetEnd h ps i r src

/-- `reset` (pointers.h:245-255) with a raw pointer that is already on the heap. -/
def resetPtr (h : Heap V) (ps : List P) (i : Nat) (src : Option Nat) (oom : Bool) : Out (St V × Bool) := do
  let o ← vget ps i
  if o.ptr = src then pure (⟨h, ps⟩, false)
  else
    match o.rc with
    | none => resetNew h ps i none src oom
    | some r => do
      let n ← h.readRc r
      let h ← h.writeRc r (n - 1)
      if n - 1 = 0 then do
        let h ← h.delete o.ptr
        resetEnd h ps i r src
      else resetNew h ps i (some r) src oom

/-- `*p_i = v` (pointers.h:195-197); undefined for a null pointer. -/
def write (s : St V) (i : Nat) (v : V) : Out (St V) := do
  let o ← vget s.ps i
  match o.ptr with
  | none => .ub
  | some p => do
    let h ← s.heap.write p v
    pure ⟨h, s.ps⟩

/-- One operation; the flag tells whether `bad_alloc` was thrown. -/
def step (s : St V) : Op V → Out (St V × Bool)
  | .make src oom => make s src oom
  | .dflt => .ok (dflt s, false)
  | .copy i => do let s ← copy s i; pure (s, false)
  | .swap i j => do let ps ← swapP s.ps i j; pure (⟨s.heap, ps⟩, false)
  | .destroy i => do let s ← destroy s i; pure (s, false)
  | .assign i j => do let s ← assign s i j; pure (s, false)
  | .reset i src oom => do
    let (h, p) := s.heap.newObj src
    resetPtr h s.ps i p oom
  | .resetSelf i oom => do
    let o ← vget s.ps i
    resetPtr s.heap s.ps i o.ptr oom
  | .write i v _ => do let s ← write s i v; pure (s, false)

/-- A history of operations, with the flags. -/
def run (s : St V) : List (Op V) → Out (St V × List Bool)
  | [] => .ok (s, [])
  | op :: ops => do
    let (s, b) ← step s op
    let (s, bs) ← run s ops
    pure (s, b :: bs)

end Shared

namespace Cow

/-- `cow_pointer(T*)` (pointers.h:381-390); also the default constructor, with a null pointer. -/
def make (s : St V) (src : Option V) (oom : Bool) : Out (St V × Bool) := do
  let (h, p) := s.heap.newObj src
  if oom then do
    let h ← h.delete p
    pure (⟨h, s.ps⟩, true)
  else
    let (h, r) := h.newRc 1
    pure (⟨h, s.ps ++ [⟨p, some r⟩]⟩, false)

/-- The count of a `cow_pointer` is never null; dereferencing a null one would be undefined. -/
def rcOf (o : P) : Out Nat :=
  match o.rc with
  | some r => .ok r
  | none => .ub

/-- The copy constructor (pointers.h:397-398). -/
def copy (s : St V) (i : Nat) : Out (St V) := do
  let o ← vget s.ps i
  let r ← rcOf o
  let n ← s.heap.readRc r
  let h ← s.heap.writeRc r (n + 1)
  pure ⟨h, s.ps ++ [⟨o.ptr, some r⟩]⟩

/-- `~cow_pointer` (pointers.h:391). -/
def destroy (s : St V) (i : Nat) : Out (St V) := do
  let o ← vget s.ps i
  let r ← rcOf o
  let n ← s.heap.readRc r
  let h ← s.heap.writeRc r (n - 1)
  if n - 1 = 0 then do
    let h ← h.delete o.ptr
    let h ← h.deleteRc r
    pure ⟨h, s.ps.eraseIdx i⟩
  else pure ⟨h, s.ps.eraseIdx i⟩

/-- `operator=` (pointers.h:399-400). -/
def assign (s : St V) (i j : Nat) : Out (St V) := do
  let _ ← vget s.ps i
  let s' ← copy s j
  let ps ← swapP s'.ps s.ps.length i
  destroy ⟨s'.heap, ps⟩ s.ps.length

/-- `reset` (pointers.h:403-415). -/
def resetPtr (h : Heap V) (ps : List P) (i : Nat) (src : Option Nat) (oom : Bool) : Out (St V × Bool) := do
  let o ← vget ps i
  if o.ptr = src then pure (⟨h, ps⟩, false)
  else do
    let r ← rcOf o
    let n ← h.readRc r
    let h ← h.writeRc r (n - 1)
    if n - 1 = 0 then do
      let h ← h.delete o.ptr
      let h ← h.writeRc r 1
      let ps ← vset ps i ⟨src, some r⟩
      pure (⟨h, ps⟩, false)
    else if oom then do
      let n ← h.readRc r
      let h ← h.writeRc r (n + 1)
      let h ← h.delete src
      pure (⟨h, ps⟩, true)
    else do
      let (h, r) := h.newRc 0
      let h ← h.writeRc r 1
      let ps ← vset ps i ⟨src, some r⟩
      pure (⟨h, ps⟩, false)

/-- `clone` (pointers.h:418).  `T::clone` gives a fresh object with the same value. -/
def clone (s : St V) (i : Nat) (oom : Bool) : Out (St V × Bool) := do
  let o ← vget s.ps i
  let r ← rcOf o
  let n ← s.heap.readRc r
  match o.ptr with
  | none => pure (s, false)
  | some p =>
    if n > 1 then do
      let v ← s.heap.read p
      let (h, q) := s.heap.newObj (some v)
      resetPtr h s.ps i q oom
    else pure (s, false)

/-- `*p_i = v` through the non-const accessors (pointers.h:375-378), which call `clone` first. -/
def write (s : St V) (i : Nat) (v : V) (oom : Bool) : Out (St V × Bool) := do
  let (s, b) ← clone s i oom
  if b then pure (s, true)
  else do
    let o ← vget s.ps i
    match o.ptr with
    | none => .ub
    | some p => do
      let h ← s.heap.write p v
      pure (⟨h, s.ps⟩, false)

/-- One operation. -/
def step (s : St V) : Op V → Out (St V × Bool)
  | .make src oom => make s src oom
  | .dflt => make s none false
  | .copy i => do let s ← copy s i; pure (s, false)
  | .swap i j => do let ps ← swapP s.ps i j; pure (⟨s.heap, ps⟩, false)
  | .destroy i => do let s ← destroy s i; pure (s, false)
  | .assign i j => do let s ← assign s i j; pure (s, false)
  | .reset i src oom => do
    let (h, p) := s.heap.newObj src
    resetPtr h s.ps i p oom
  | .resetSelf i oom => do
    let (s, b) ← clone s i oom
    if b then pure (s, true)
    else do
      let o ← vget s.ps i
      resetPtr s.heap s.ps i o.ptr oom
  | .write i v oom => write s i v oom

/-- A history of operations, with the flags. -/
def run (s : St V) : List (Op V) → Out (St V × List Bool)
  | [] => .ok (s, [])
  | op :: ops => do
    let (s, b) ← step s op
    let (s, bs) ← run s ops
    pure (s, b :: bs)

/-- `*p_i` or a null pointer, through the const accessors (pointers.h:370-373). -/
def value (s : St V) (i : Nat) : Out (Option V) := do
  let o ← vget s.ps i
  match o.ptr with
  | none => pure none
  | some p => do let v ← s.heap.read p; pure (some v)

end Cow

/-- A `cloning_pointer` or `scoped_pointer`: `ptr` and whether the deletor (and cloner) are set
(pointers.h:176-179, 347-348). -/
structure O where
  ptr : Option Nat
  del : Bool
  deriving DecidableEq

/-- The state of a program using owning pointers; `out` are the objects released to the caller. -/
structure OSt (V : Type) where
  objs : List (Option V)
  ps : List O
  out : List Nat
  deriving DecidableEq

namespace Cloning

/-- `if (deletor) deletor(ptr)` (pointers.h:136, 152, 156). -/
def del (objs : List (Option V)) (o : O) : Out (List (Option V)) :=
  if o.del then
    match o.ptr with
    | none => .ok objs
    | some p =>
      match objs[p]? with
      | some (some _) => .ok (objs.set p none)
      | _ => .ub
  else .ok objs

/-- The copy constructor (pointers.h:142-146). -/
def copy (s : OSt V) (i : Nat) : Out (OSt V) := do
  let o ← vget s.ps i
  match o.ptr with
  | some p =>
    if o.del then
      match s.objs[p]? with
      | some (some v) => pure ⟨s.objs ++ [some v], s.ps ++ [⟨some s.objs.length, o.del⟩], s.out⟩
      | _ => .ub
    else pure ⟨s.objs, s.ps ++ [⟨none, o.del⟩], s.out⟩
  | none => pure ⟨s.objs, s.ps ++ [⟨none, o.del⟩], s.out⟩

/-- `swap` (pointers.h:139-142). -/
def swap (ps : List O) (i j : Nat) : Out (List O) := do
  let a ← vget ps i
  let b ← vget ps j
  let ps ← vset ps i b
  vset ps j a

/-- The destructor (pointers.h:136, 312). -/
def destroy (s : OSt V) (i : Nat) : Out (OSt V) := do
  let o ← vget s.ps i
  let objs ← del s.objs o
  pure ⟨objs, s.ps.eraseIdx i, s.out⟩

/-- `operator=` (pointers.h:147-148). -/
def assign (s : OSt V) (i j : Nat) : Out (OSt V) := do
  let _ ← vget s.ps i
  let s' ← copy s j
  let ps ← swap s'.ps s.ps.length i
  destroy ⟨s'.objs, ps, s'.out⟩ s.ps.length

/-- The operations; `scoped_pointer` has all but `copy`, `assign` and `swap`. -/
inductive Op (V : Type)
  | make (src : Option V)
  | dflt
  | copy (i : Nat)
  | swap (i j : Nat)
  | destroy (i : Nat)
  | assign (i j : Nat)
  /-- `reset(new T(v))` or `reset((T*)0)` -/
  | reset (i : Nat) (src : Option V)
  /-- `reset()` -/
  | clear (i : Nat)
  | release (i : Nat)
  | write (i : Nat) (v : V)

/-- One operation (constructors pointers.h:119-134, 297-310; `reset` 151-158, 315-322; `release`
161-162, 325-326). -/
def step (s : OSt V) : Op V → Out (OSt V)
  | .make src =>
    match src with
    | none => pure ⟨s.objs, s.ps ++ [⟨none, true⟩], s.out⟩
    | some v => pure ⟨s.objs ++ [some v], s.ps ++ [⟨some s.objs.length, true⟩], s.out⟩
  | .dflt => pure ⟨s.objs, s.ps ++ [⟨none, false⟩], s.out⟩
  | .copy i => copy s i
  | .swap i j => do let ps ← swap s.ps i j; pure ⟨s.objs, ps, s.out⟩
  | .destroy i => destroy s i
  | .assign i j => assign s i j
  | .reset i src => do
    let o ← vget s.ps i
    match src with
    | none => do
      let objs ← del s.objs o
      let ps ← vset s.ps i ⟨none, true⟩
      pure ⟨objs, ps, s.out⟩
    | some v => do
      let objs ← del (s.objs ++ [some v]) o
      let ps ← vset s.ps i ⟨some s.objs.length, true⟩
      pure ⟨objs, ps, s.out⟩
  | .clear i => do
    let o ← vget s.ps i
    let objs ← del s.objs o
    let ps ← vset s.ps i ⟨none, false⟩
    pure ⟨objs, ps, s.out⟩
  | .release i => do
    let o ← vget s.ps i
    let ps ← vset s.ps i ⟨none, false⟩
    pure ⟨s.objs, ps, s.out ++ o.ptr.toList⟩
  | .write i v => do
    let o ← vget s.ps i
    match o.ptr with
    | none => .ub
    | some p =>
      match s.objs[p]? with
      | some (some _) => pure ⟨s.objs.set p (some v), s.ps, s.out⟩
      | _ => .ub

/-- A history of operations. -/
def run (s : OSt V) : List (Op V) → Out (OSt V)
  | [] => .ok s
  | op :: ops => do
    let s ← step s op
    run s ops

/-- `*p_i` or a null pointer. -/
def value (s : OSt V) (i : Nat) : Out (Option V) := do
  let o ← vget s.ps i
  match o.ptr with
  | none => pure none
  | some p =>
    match s.objs[p]? with
    | some (some v) => pure (some v)
    | _ => .ub

end Cloning

end Ptr
end Ringing
