import Verif.Lemmas.Pointers
/-
C56: the smart pointers, for every history of operations, including failures of allocation.
-/
namespace Ringing
namespace Ptr
variable {V : Type}

/-! ## shared_pointer: the specification

A program sees handles: each pointer is either unset (default constructed), or was given a pointer, null
or to one of the objects created so far.  Nothing about counts or deletion. -/

/-- What the program sees: for each pointer `none` (unset), `some none` (null) or `some (some o)`; and the
present value of every object ever created. -/
structure Handles (V : Type) where
  hs : List (Option (Option Nat))
  vals : List V

/-- `p_i.get()`. -/
def Handles.get (a : Handles V) (i : Nat) : Option Nat := ((a.hs[i]?).getD none).getD none

/-- What an operation means; `threw` tells that the allocation failed. -/
def Handles.step (a : Handles V) (threw : Bool) : Op V → Handles V
  | .make src _ => ⟨if threw then a.hs else a.hs ++ [some (src.map fun _ => a.vals.length)], a.vals ++ src.toList⟩
  | .dflt => ⟨a.hs ++ [none], a.vals⟩
  | .copy i => ⟨a.hs ++ [a.hs.getD i none], a.vals⟩
  | .swap i j => ⟨(a.hs.set i (a.hs.getD j none)).set j (a.hs.getD i none), a.vals⟩
  | .destroy i => ⟨a.hs.eraseIdx i, a.vals⟩
  | .assign i j => ⟨a.hs.set i (a.hs.getD j none), a.vals⟩
  | .reset i src _ =>
    ⟨if threw ∨ (src.isNone ∧ a.get i = none) then a.hs else a.hs.set i (some (src.map fun _ => a.vals.length)),
      a.vals ++ src.toList⟩
  | .resetSelf _ _ => a
  | .write i v _ => match a.get i with
    | some o => ⟨a.hs, a.vals.set o v⟩
    | none => a

/-- The operation names existing pointers, writes through a non-null one, and is not a `reset` of an
unset pointer with the allocation failing. -/
def Handles.Allowed (a : Handles V) : Op V → Prop
  | .make _ _ => True
  | .dflt => True
  | .copy i => i < a.hs.length
  | .swap i j => i < a.hs.length ∧ j < a.hs.length
  | .destroy i => i < a.hs.length
  | .assign i j => i < a.hs.length ∧ j < a.hs.length
  | .reset i _ oom => i < a.hs.length ∧ (oom = true → a.hs.getD i none ≠ none)
  | .resetSelf i _ => i < a.hs.length
  | .write i _ _ => i < a.hs.length ∧ a.get i ≠ none

/-- The allocation fails. -/
def Op.oom : Op V → Bool
  | .make _ b => b
  | .reset _ _ b => b
  | .resetSelf _ b => b
  | .write _ _ b => b
  | _ => false

/-- A history. -/
def Handles.run (a : Handles V) : List (Op V) → List Bool → Handles V
  | op :: ops, b :: bs => Handles.run (a.step b op) ops bs
  | _, _ => a

/-- The state of the program is as specified: every pointer holds the object it should; an object is
alive, with the value it should have, exactly as long as some pointer holds it; and the counts are
freed with their last pointer. -/
structure Agrees (s : St V) (a : Handles V) : Prop where
  count : s.ps.length = a.hs.length
  ptrs : ∀ i (h : i < s.ps.length), s.ps[i].ptr = a.get i
  objects : s.heap.objs.length = a.vals.length
  alive : ∀ o v, s.heap.objs[o]? = some (some v) ↔ a.vals[o]? = some v ∧ ∃ i, i < a.hs.length ∧ a.get i = some o
  counts : ∀ r n, s.heap.rcs[r]? = some (some n) → ∃ p ∈ s.ps, p.rc = some r

/-! ## The simulation -/

def hOf (p : P) : Option (Option Nat) := match p.rc with
  | none => none
  | some _ => some p.ptr

structure Rel (s : St V) (a : Handles V) : Prop where
  inv : Inv s.heap s.ps
  hs : a.hs = s.ps.map hOf
  len : s.heap.objs.length = a.vals.length
  vals : ∀ (o : Nat) (v : V), s.heap.objs[o]? = some (some v) → a.vals[o]? = some v

theorem hOf_getD {h : Heap V} {ps : List P} (hi : Inv h ps) {p : P} (hp : p ∈ ps) : (hOf p).getD none = p.ptr := by
  unfold hOf
  split
  · rename_i hr; rw [hi.null p hp hr]; rfl
  · rfl

theorem Rel.get {s : St V} {a : Handles V} (h : Rel s a) {i : Nat} (hi : i < s.ps.length) : a.get i = s.ps[i].ptr := by
  unfold Handles.get
  rw [h.hs, List.getElem?_map, List.getElem?_eq_getElem hi]
  exact hOf_getD h.inv (List.getElem_mem hi)

theorem Rel.hget {s : St V} {a : Handles V} (h : Rel s a) {i : Nat} (hi : i < s.ps.length) : a.hs.getD i none = hOf s.ps[i] := by
  rw [List.getD_eq_getElem?_getD, h.hs, List.getElem?_map, List.getElem?_eq_getElem hi]; rfl

theorem Rel.length {s : St V} {a : Handles V} (h : Rel s a) : a.hs.length = s.ps.length := by rw [h.hs]; simp

theorem Rel.agrees {s : St V} {a : Handles V} (h : Rel s a) : Agrees s a := by
  refine ⟨h.length.symm, fun i hi => (h.get hi).symm, h.len, ?_, fun r n hr => h.inv.rcFree r n hr⟩
  intro o v
  constructor
  · intro ho
    refine ⟨h.vals o v ho, ?_⟩
    obtain ⟨p, hp, hpo⟩ := h.inv.owned o v ho
    obtain ⟨i, hi, rfl⟩ := List.getElem_of_mem hp
    exact ⟨i, by rw [h.length]; exact hi, (h.get hi).trans hpo⟩
  · rintro ⟨hv, i, hi, ho⟩
    rw [h.length] at hi
    rw [h.get hi] at ho
    obtain ⟨w, hw⟩ := h.inv.live _ (List.getElem_mem hi) o ho
    have := h.vals o w hw
    rw [hv] at this
    rw [hw]; simpa using this.symm

theorem dropHeap_objs {h : Heap V} {p : P} {ps : List P} :
    (dropHeap h p ps).objs.length = h.objs.length ∧
    ∀ (o : Nat) (v : V), (dropHeap h p ps).objs[o]? = some (some v) → h.objs[o]? = some (some v) := by
  unfold dropHeap
  split
  · exact ⟨rfl, fun _ _ h => h⟩
  · split
    · exact ⟨by simp, fun o v h => (setNone_get h).1⟩
    · exact ⟨rfl, fun _ _ h => h⟩

theorem copyHeap_objs {h : Heap V} {p : P} {ps : List P} : (copyHeap h ps p).objs = h.objs := by
  unfold copyHeap
  split <;> rfl

theorem append_vals {objs : List (Option V)} {vals : List V} (hl : objs.length = vals.length)
    (hv : ∀ (o : Nat) (v : V), objs[o]? = some (some v) → vals[o]? = some v) (src : Option V) :
    ∀ (o : Nat) (v : V), (objs ++ (src.map some).toList)[o]? = some (some v) → (vals ++ src.toList)[o]? = some v := by
  intro o v h
  rcases Nat.lt_or_ge o objs.length with hlt | hge
  · rw [List.getElem?_append_left hlt] at h
    rw [List.getElem?_append_left (by omega)]
    exact hv o v h
  · rw [List.getElem?_append_right hge] at h
    rw [List.getElem?_append_right (by omega), ← hl]
    cases src with
    | none => simp at h
    | some w =>
      simp only [Option.map_some, Option.toList_some] at h ⊢
      rcases Nat.eq_or_lt_of_le hge with e | e
      · simp [← e] at h ⊢; exact h
      · rw [List.getElem?_eq_none (by simp; omega)] at h; simp at h

theorem dead_vals {objs : List (Option V)} {vals : List V} (hl : objs.length = vals.length)
    (hv : ∀ (o : Nat) (v : V), objs[o]? = some (some v) → vals[o]? = some v) (src : Option V) :
    ∀ (o : Nat) (v : V), (objs ++ (src.map fun _ => none).toList)[o]? = some (some v) → (vals ++ src.toList)[o]? = some v := by
  intro o v h
  rcases Nat.lt_or_ge o objs.length with hlt | hge
  · rw [List.getElem?_append_left hlt] at h
    rw [List.getElem?_append_left (by omega)]
    exact hv o v h
  · rw [List.getElem?_append_right hge] at h
    cases src with
    | none => simp at h
    | some w =>
      simp only [Option.map_some, Option.toList_some] at h
      rcases Nat.eq_or_lt_of_le hge with e | e
      · simp [← e] at h
      · rw [List.getElem?_eq_none (by simp; omega)] at h; simp at h

theorem map_set' {l : List P} {i : Nat} {a : P} : (l.set i a).map hOf = (l.map hOf).set i (hOf a) := by
  rw [List.map_set]

theorem shared_step {s : St V} {a : Handles V} (h : Rel s a) (op : Op V) (hop : a.Allowed op) :
    ∃ s' b, Shared.step s op = .ok (s', b) ∧ (b = true → op.oom = true) ∧ Rel s' (a.step b op) := by
  have hlen := h.length
  cases op with
  | make src oom =>
    simp only [Shared.step, Shared.make, newObj_eq]
    cases oom with
    | true =>
      simp only [if_true]
      rw [delete_fresh, Out.ok_bind]
      refine ⟨_, _, rfl, fun _ => rfl, h.inv.add_dead src, h.hs, ?_, dead_vals h.len h.vals src⟩
      cases src <;> simp [Handles.step, h.len]
    | false =>
      simp only [Bool.false_eq_true, if_false, Heap.newRc]
      refine ⟨_, _, rfl, by simp, (h.inv.add_new src).perm (List.perm_append_singleton _ _).symm, ?_, ?_,
        append_vals h.len h.vals src⟩
      · simp only [Handles.step, Bool.false_eq_true, if_false, List.map_append, h.hs, h.len]; rfl
      · cases src <;> simp [Handles.step, h.len]
  | dflt =>
    exact ⟨_, _, rfl, by simp, h.inv.add_null.perm (List.perm_append_singleton _ _).symm,
      by simp only [Handles.step, Shared.dflt, h.hs, List.map_append]; rfl, h.len, h.vals⟩
  | copy i =>
    have hi : i < s.ps.length := hlen ▸ hop
    simp only [Shared.step]
    rw [shared_copy h.inv hi, Out.ok_bind]
    refine ⟨_, _, rfl, by simp, h.inv.copy (List.getElem_mem hi), ?_, ?_, ?_⟩
    · simp only [Handles.step, h.hget hi]; rw [h.hs]; simp
    · simp only [copyHeap_objs]; exact h.len
    · simp only [copyHeap_objs]; exact h.vals
  | swap i j =>
    have hi : i < s.ps.length := hlen ▸ hop.1
    have hj : j < s.ps.length := hlen ▸ hop.2
    simp only [Shared.step]
    rw [swapP_ok hi hj, Out.ok_bind]
    refine ⟨_, _, rfl, by simp, h.inv.perm (List.set_set_perm hi hj).symm, ?_, h.len, h.vals⟩
    simp only [Handles.step, h.hget hi, h.hget hj, map_set']; rw [h.hs]
  | destroy i =>
    have hi : i < s.ps.length := hlen ▸ hop
    simp only [Shared.step]
    rw [shared_destroy h.inv hi, Out.ok_bind]
    refine ⟨_, _, rfl, by simp, (h.inv.perm (perm_cons hi)).drop, ?_, dropHeap_objs.1.trans h.len,
      fun o v ho => h.vals o v (dropHeap_objs.2 o v ho)⟩
    simp only [Handles.step, h.hs, List.eraseIdx_map]
  | assign i j =>
    have hi : i < s.ps.length := hlen ▸ hop.1
    have hj : j < s.ps.length := hlen ▸ hop.2
    simp only [Shared.step]
    obtain ⟨e, hinv⟩ := shared_assign h.inv hi hj
    rw [e, Out.ok_bind]
    refine ⟨_, _, rfl, by simp, hinv, ?_, ?_, ?_⟩
    · simp only [Handles.step, h.hget hj, map_set']; rw [h.hs]
    · exact dropHeap_objs.1.trans (by rw [copyHeap_objs]; exact h.len)
    · intro o v ho
      have := dropHeap_objs.2 o v ho
      rw [copyHeap_objs] at this
      exact h.vals o v this
  | reset i src oom =>
    have hi : i < s.ps.length := hlen ▸ hop.1
    have hok : oom = true → s.ps[i].rc ≠ none := by
      intro ho hr
      have := hop.2 ho
      rw [h.hget hi] at this
      exact this (by unfold hOf; rw [hr])
    obtain ⟨h', ps', b, e, hb, hinv, hl, hv, ht, hf⟩ := shared_reset h.inv hi src oom hok
    refine ⟨_, b, e, hb, hinv, ?_, ?_, ?_⟩
    · simp only [Handles.step]
      cases b with
      | true => rw [if_pos (by simp), ht rfl]; exact h.hs
      | false =>
        rcases hf rfl with ⟨rfl, hp, rfl⟩ | ⟨hor, r, rfl⟩
        · rw [if_pos (Or.inr ⟨rfl, (h.get hi).trans hp⟩)]; exact h.hs
        · have hn : ¬ (false = true ∨ (src.isNone = true ∧ a.get i = none)) := by
            rintro (h1 | ⟨h1, h2⟩)
            · simp at h1
            · rw [h.get hi] at h2
              rcases hor with h3 | h3
              · exact h3 h2
              · exact h3 (by simpa using h1)
          rw [if_neg hn, map_set', h.hs, h.len]; rfl
    · simp only [Handles.step]
      rw [hl, h.len]; simp
    · intro o v ho
      exact append_vals h.len h.vals src o v (hv o v ho)
  | resetSelf i oom =>
    have hi : i < s.ps.length := hlen ▸ hop
    simp only [Shared.step, Shared.resetPtr]
    rw [vget_ok' hi, Out.ok_bind, Out.ok_bind, if_pos rfl]
    exact ⟨_, _, rfl, by simp, h.inv, h.hs, h.len, h.vals⟩
  | write i v oom =>
    have hi : i < s.ps.length := hlen ▸ hop.1
    simp only [Shared.step, Shared.write]
    rw [vget_ok' hi, Out.ok_bind]
    have hg := h.get hi
    cases hp : s.ps[i].ptr with
    | none => exact absurd (hg.trans hp) hop.2
    | some o =>
      obtain ⟨w, hw⟩ := h.inv.live _ (List.getElem_mem hi) o hp
      have hlt := (List.getElem?_eq_some_iff.1 hw).1
      simp only [Heap.write, hw, Out.ok_bind]
      refine ⟨_, _, rfl, by simp, h.inv.write hw, ?_, ?_, ?_⟩
      · simp only [Handles.step, hg, hp]; exact h.hs
      · simp only [Handles.step, hg, hp, List.length_set]; exact h.len
      · intro q u hq
        simp only [Handles.step, hg, hp, set_get] at hq ⊢
        by_cases e : o = q
        · rw [if_pos e] at hq ⊢
          rw [if_pos hlt] at hq
          rw [if_pos (h.len ▸ hlt)]
          simpa using hq
        · rw [if_neg e] at hq ⊢; exact h.vals q u hq

theorem rel_empty : Rel (⟨⟨[], []⟩, []⟩ : St V) ⟨[], []⟩ :=
  ⟨⟨by simp, by simp, by simp, by simp, by simp, by simp, by simp⟩, rfl, rfl, by simp⟩

/-- **shared_pointer.**  Take any history of operations.  Either a prefix of it leads to a state in which
the next operation is a misuse, or the history runs to the end without undefined behaviour (no double
deletion, no use of a freed object or count) and the final state agrees with the specification: in
particular each object is deleted exactly when the last pointer to it goes, and operations that throw
`bad_alloc` leave all pointers as they were. -/
theorem C56_shared (ops : List (Op V)) :
    (∃ s fl, Shared.run ⟨⟨[], []⟩, []⟩ ops = .ok (s, fl) ∧ fl.length = ops.length ∧
      (∀ i (h : i < fl.length) (h' : i < ops.length), fl[i] = true → ops[i].oom = true) ∧
      Agrees s (Handles.run ⟨[], []⟩ ops fl)) ∨
    (∃ pre op post s fl, ops = pre ++ op :: post ∧ Shared.run ⟨⟨[], []⟩, []⟩ pre = .ok (s, fl) ∧
      fl.length = pre.length ∧ ¬ (Handles.run ⟨[], []⟩ pre fl).Allowed op) := by
  have key : ∀ (ops : List (Op V)) (s : St V) (a : Handles V), Rel s a →
      (∃ s' fl, Shared.run s ops = .ok (s', fl) ∧ fl.length = ops.length ∧
        (∀ i (h : i < fl.length) (h' : i < ops.length), fl[i] = true → ops[i].oom = true) ∧
        Rel s' (Handles.run a ops fl)) ∨
      (∃ pre op post s' fl, ops = pre ++ op :: post ∧ Shared.run s pre = .ok (s', fl) ∧
        fl.length = pre.length ∧ ¬ (Handles.run a pre fl).Allowed op) := by
    intro ops
    induction ops with
    | nil => intro s a h; left; exact ⟨s, [], rfl, rfl, by simp, h⟩
    | cons op ops ih =>
      intro s a h
      by_cases hop : a.Allowed op
      · obtain ⟨s1, b, e, hb, hrel⟩ := shared_step h op hop
        rcases ih s1 _ hrel with ⟨s2, fl, e2, hl, hfl, hr2⟩ | ⟨pre, op', post, s2, fl, rfl, e2, hl, hn⟩
        · left
          refine ⟨s2, b :: fl, ?_, by simp [hl], ?_, hr2⟩
          · simp [Shared.run, e, e2]
          · intro i h1 h2
            cases i with
            | zero => exact hb
            | succ i => exact hfl i (by simpa using h1) (by simpa using h2)
        · right
          refine ⟨op :: pre, op', post, s2, b :: fl, rfl, ?_, by simp [hl], hn⟩
          simp [Shared.run, e, e2]
      · right
        exact ⟨[], op, ops, s, [], rfl, rfl, rfl, hop⟩
  rcases key ops _ _ rel_empty with ⟨s, fl, h1, h2, h3, h4⟩ | h
  · exact Or.inl ⟨s, fl, h1, h2, h3, h4.agrees⟩
  · exact Or.inr h

/-- A history with sharing, assignment, a failing `reset` and destruction. -/
def exOps : List (Op Nat) :=
  [.make (some 1) false, .copy 0, .make (some 2) true, .reset 0 (some 3) true, .dflt, .assign 2 1, .write 2 7 false,
    .destroy 0, .reset 0 (some 5) false, .swap 0 1, .destroy 0]

example : Shared.run ⟨⟨[], []⟩, []⟩ exOps = .ok (⟨⟨[none, none, none, some 5], [none, some 1]⟩, [⟨some 3, some 1⟩]⟩,
    [false, false, true, true, false, false, false, false, false, false, false]) := by decide

/-- When the last pointer is gone nothing is left allocated. -/
theorem C56_shared_no_leak {s : St V} {a : Handles V} (h : Agrees s a) (he : a.hs = []) :
    (∀ c ∈ s.heap.objs, c = none) ∧ ∀ c ∈ s.heap.rcs, c = none := by
  constructor
  · intro c hc
    obtain ⟨o, ho, rfl⟩ := List.getElem_of_mem hc
    cases hv : s.heap.objs[o] with
    | none => rfl
    | some v =>
      obtain ⟨-, i, hi, -⟩ := (h.alive o v).1 (by rw [List.getElem?_eq_getElem ho, hv])
      rw [he] at hi; simp at hi
  · intro c hc
    obtain ⟨r, hr, rfl⟩ := List.getElem_of_mem hc
    cases hv : s.heap.rcs[r] with
    | none => rfl
    | some v =>
      obtain ⟨p, hp, -⟩ := h.counts r v (by rw [List.getElem?_eq_getElem hr, hv])
      have : s.ps = [] := List.eq_nil_of_length_eq_zero (by rw [h.count, he]; rfl)
      rw [this] at hp; simp at hp

/-- The misuse excluded above: a `reset` of a default-constructed pointer, if the count cannot be
allocated, dereferences a null pointer. -/
theorem C56_shared_oom_false (v : V) :
    Shared.run ⟨⟨[], []⟩, []⟩ [.dflt, .reset 0 (some v) true] = .ub := by
  simp [Shared.run, Shared.step, Shared.dflt, Shared.resetPtr, Shared.resetNew, Heap.newObj, vget]

/-! ## cow_pointer and cloning_pointer: values -/

/-- What the program sees: each pointer is null or has a value of its own. -/
def Values.step (a : List (Option V)) (threw : Bool) : Op V → List (Option V)
  | .make src _ => if threw then a else a ++ [src]
  | .dflt => a ++ [none]
  | .copy i => a ++ [a.getD i none]
  | .swap i j => (a.set i (a.getD j none)).set j (a.getD i none)
  | .destroy i => a.eraseIdx i
  | .assign i j => a.set i (a.getD j none)
  | .reset i src _ => if threw then a else a.set i src
  | .resetSelf _ _ => a
  | .write i v _ => if threw then a else a.set i (some v)

/-- The operation names existing pointers and does not write through a null one. -/
def Values.Allowed (a : List (Option V)) : Op V → Prop
  | .make _ _ => True
  | .dflt => True
  | .copy i => i < a.length
  | .swap i j => i < a.length ∧ j < a.length
  | .destroy i => i < a.length
  | .assign i j => i < a.length ∧ j < a.length
  | .reset i _ _ => i < a.length
  | .resetSelf i _ => i < a.length
  | .write i _ _ => i < a.length ∧ a.getD i none ≠ none

def Values.run (a : List (Option V)) : List (Op V) → List Bool → List (Option V)
  | op :: ops, b :: bs => Values.run (Values.step a b op) ops bs
  | _, _ => a

/-- Every pointer reads as the value it should have, and what is allocated is held by some pointer. -/
structure AgreesV (s : St V) (a : List (Option V)) : Prop where
  count : s.ps.length = a.length
  values : ∀ i (h : i < a.length), Cow.value s i = .ok a[i]
  objs : ∀ o v, s.heap.objs[o]? = some (some v) → ∃ p ∈ s.ps, p.ptr = some o
  counts : ∀ r n, s.heap.rcs[r]? = some (some n) → ∃ p ∈ s.ps, p.rc = some r

def valOf (objs : List (Option V)) (p : P) : Option V := match p.ptr with
  | none => none
  | some o => (objs[o]?).getD none

structure RelV (s : St V) (a : List (Option V)) : Prop where
  inv : Inv s.heap s.ps
  rc : ∀ p ∈ s.ps, p.rc ≠ none
  vals : a = s.ps.map (valOf s.heap.objs)

theorem RelV.length {s : St V} {a : List (Option V)} (h : RelV s a) : a.length = s.ps.length := by rw [h.vals]; simp

theorem RelV.get {s : St V} {a : List (Option V)} (h : RelV s a) {i : Nat} (hi : i < s.ps.length) :
    a.getD i none = valOf s.heap.objs s.ps[i] := by
  rw [h.vals, List.getD_eq_getElem?_getD, List.getElem?_map, List.getElem?_eq_getElem hi]; rfl

theorem valOf_live {objs : List (Option V)} {p : P} {o : Nat} {v : V} (hp : p.ptr = some o) (h : objs[o]? = some (some v)) :
    valOf objs p = some v := by
  unfold valOf; rw [hp]; simp only [h]; rfl

theorem valOf_none {objs : List (Option V)} {p : P} (hp : p.ptr = none) : valOf objs p = none := by
  unfold valOf; rw [hp]

theorem valOf_mono {objs objs' : List (Option V)} {p : P}
    (hl : ∀ o, p.ptr = some o → ∃ v, objs'[o]? = some (some v))
    (hm : ∀ (o : Nat) (v : V), objs'[o]? = some (some v) → objs[o]? = some (some v)) : valOf objs' p = valOf objs p := by
  cases hp : p.ptr with
  | none => rw [valOf_none hp, valOf_none hp]
  | some o =>
    obtain ⟨v, hv⟩ := hl o hp
    rw [valOf_live hp hv, valOf_live hp (hm o v hv)]

theorem RelV.agrees {s : St V} {a : List (Option V)} (h : RelV s a) : AgreesV s a := by
  refine ⟨h.length.symm, ?_, h.inv.owned, h.inv.rcFree⟩
  intro i hi
  have hi' : i < s.ps.length := h.length ▸ hi
  have hg := h.get hi'
  rw [getD_eq hi] at hg
  rw [hg]
  unfold Cow.value
  rw [vget_ok' hi', Out.ok_bind]
  cases hp : s.ps[i].ptr with
  | none => rw [valOf_none hp]; rfl
  | some o =>
    obtain ⟨v, hv⟩ := h.inv.live _ (List.getElem_mem hi') o hp
    rw [valOf_live hp hv]
    simp [Heap.read, hv]

theorem mem_set_of {ps : List P} {i : Nat} {a : P} {P' : P → Prop} (h : ∀ p ∈ ps, P' p) (ha : P' a) : ∀ p ∈ ps.set i a, P' p := by
  intro p hp
  rcases List.mem_or_eq_of_mem_set hp with h1 | rfl
  · exact h p h1
  · exact ha

theorem valOf_append {h : Heap V} {ps : List P} (hi : Inv h ps) {p : P} (hp : p ∈ ps) (l : List (Option V)) :
    valOf (h.objs ++ l) p = valOf h.objs p := by
  cases hq : p.ptr with
  | none => rw [valOf_none hq, valOf_none hq]
  | some o =>
    obtain ⟨v, hv⟩ := hi.live p hp o hq
    rw [valOf_live hq hv, valOf_live hq]
    rw [List.getElem?_append_left (List.getElem?_eq_some_iff.1 hv).1]; exact hv

theorem cow_reset_step {s : St V} {a : List (Option V)} (h : RelV s a) {i : Nat} (hi : i < s.ps.length) (src : Option V) (oom : Bool) :
    ∃ s' b, Shared.step s (.reset i src oom) = .ok (s', b) ∧ (b = true → oom = true) ∧
      RelV s' (if b then a else a.set i src) ∧ s'.ps.length = s.ps.length ∧
      (b = false → src ≠ none → ∀ j (hj : j < s'.ps.length) (hi' : i < s'.ps.length), j ≠ i → s'.ps[j].ptr = s'.ps[i].ptr →
        s'.ps[j].ptr = none) := by
  have hirc := h.rc _ (List.getElem_mem hi)
  obtain ⟨h', ps', b, e, hb, hinv, hl, hv, ht, hf⟩ := shared_reset h.inv hi src oom (fun _ => hirc)
  refine ⟨⟨h', ps'⟩, b, e, hb, ?_⟩
  have others : ∀ p ∈ ps', p ∈ s.ps → valOf h'.objs p = valOf s.heap.objs p := by
    intro p hp hp2
    rw [valOf_mono (hinv.live p hp) hv, valOf_append h.inv hp2]
  cases b with
  | true =>
    have := ht rfl
    subst this
    refine ⟨⟨hinv, h.rc, ?_⟩, rfl, by simp⟩
    rw [if_pos rfl, h.vals]
    exact List.map_congr_left (fun p hp => (others p hp hp).symm)
  | false =>
    rcases hf rfl with ⟨rfl, hp, rfl⟩ | ⟨-, r, rfl⟩
    · refine ⟨⟨hinv, h.rc, ?_⟩, rfl, by simp⟩
      rw [if_neg (by simp), h.vals]
      apply List.ext_getElem (by simp)
      intro j h1 h2
      rw [List.getElem_set]
      simp only [List.length_set, List.length_map] at h1
      by_cases e : i = j
      · subst e; simp only [if_true, List.getElem_map]; rw [valOf_none hp]
      · rw [if_neg e]; simp only [List.getElem_map]
        exact (others _ (List.getElem_mem h1) (List.getElem_mem h1)).symm
    · refine ⟨⟨hinv, mem_set_of h.rc (by simp), ?_⟩, by simp, ?_⟩
      · rw [if_neg (by simp), h.vals]
        apply List.ext_getElem (by simp)
        intro j h1 h2
        simp only [List.length_set, List.length_map] at h1 h2
        by_cases e : i = j
        · subst e
          simp only [List.getElem_set_self, List.getElem_map]
          cases src with
          | none => rw [valOf_none rfl]
          | some v =>
            obtain ⟨w, hw⟩ := hinv.live _ (by rw [List.mem_iff_getElem]; exact ⟨i, by simpa using h2, List.getElem_set_self _⟩) s.heap.objs.length rfl
            have := hv _ _ hw
            simp at this
            subst this
            rw [valOf_live rfl hw]
        · simp only [List.getElem_set_ne e, List.getElem_map]
          refine (others _ ?_ (List.getElem_mem h1)).symm
          rw [List.mem_iff_getElem]; exact ⟨j, by simpa using h2, List.getElem_set_ne e _⟩
      · intro _ hsrc j hj hi' hne
        have hj' : j < s.ps.length := by simpa using hj
        simp only [List.getElem_set_ne (fun e => hne e.symm), List.getElem_set_self]
        cases src with
        | none => exact absurd rfl hsrc
        | some v =>
          intro hc
          obtain ⟨w, hw⟩ := h.inv.live _ (List.getElem_mem hj') _ hc
          simp at hw

theorem cow_clone {s : St V} {a : List (Option V)} (h : RelV s a) {i : Nat} (hi : i < s.ps.length) (oom : Bool) :
    ∃ s' b, Cow.clone s i oom = .ok (s', b) ∧ (b = true → oom = true) ∧ RelV s' a ∧ s'.ps.length = s.ps.length ∧
      (b = false → ∀ j (hj : j < s'.ps.length) (hi' : i < s'.ps.length), j ≠ i → s'.ps[j].ptr = s'.ps[i].ptr →
        s'.ps[j].ptr = none) := by
  have hrc := h.rc _ (List.getElem_mem hi)
  unfold Cow.clone Cow.rcOf
  rw [vget_ok' hi, Out.ok_bind]
  cases hr : s.ps[i].rc with
  | none => exact absurd hr hrc
  | some r =>
    have hp := h.inv.perm (perm_cons hi)
    have hcell := hp.rcOk _ (by simp) r hr
    rw [cnt_cons, if_pos hr] at hcell
    simp only [Out.ok_bind]
    rw [readRc_ok hcell, Out.ok_bind]
    cases hq : s.ps[i].ptr with
    | none =>
      refine ⟨s, false, rfl, by simp, h, rfl, ?_⟩
      intro _ j hj hi' _ e
      rw [e, hq]
    | some o =>
      simp only []
      obtain ⟨v, hv⟩ := h.inv.live _ (List.getElem_mem hi) o hq
      by_cases hn : 0 < cnt (s.ps.eraseIdx i) r
      · rw [if_pos (by push_cast; omega)]
        simp only [Heap.read, hv, Out.ok_bind, newObj_eq]
        obtain ⟨s', b, e, hb, hrel, hl, hu⟩ := cow_reset_step h hi (some v) oom
        refine ⟨s', b, ?_, hb, ?_, hl, fun hb => hu hb (by simp)⟩
        · rw [cow_reset hi hrc]
          simp only [Shared.step, newObj_eq] at e
          exact e
        · have ea : a.set i (some v) = a := by
            have hg := h.get hi
            rw [valOf_live hq hv, getD_eq (h.length ▸ hi)] at hg
            rw [← hg, List.set_getElem_self]
          rw [ea, ite_self] at hrel
          exact hrel
      · rw [if_neg (by push_cast; omega)]
        refine ⟨s, false, rfl, by simp, h, rfl, ?_⟩
        intro _ j hj hi' hne e
        exfalso
        have hc0 : cnt (s.ps.eraseIdx i) r = 0 := by omega
        have hmem : s.ps[j] ∈ s.ps.eraseIdx i := by
          rw [List.mem_eraseIdx_iff_getElem]
          exact ⟨j, hj, hne, rfl⟩
        have := h.inv.same2 _ (List.getElem_mem hj) _ (List.getElem_mem hi) o (e.trans hq) hq
        exact cnt_zero.1 hc0 _ hmem (this.trans hr)

theorem cow_step {s : St V} {a : List (Option V)} (h : RelV s a) (op : Op V) (hop : Values.Allowed a op) :
    ∃ s' b, Cow.step s op = .ok (s', b) ∧ (b = true → op.oom = true) ∧ RelV s' (Values.step a b op) := by
  have hlen := h.length
  have hmake : ∀ src oom, ∃ s' b, Cow.make s src oom = .ok (s', b) ∧ (b = true → oom = true) ∧
      RelV s' (if b then a else a ++ [src]) ∧ (oom = false → b = false) := by
    intro src oom
    simp only [Cow.make, newObj_eq]
    cases oom with
    | true =>
      simp only [if_true]
      rw [delete_fresh, Out.ok_bind]
      refine ⟨_, _, rfl, by simp, ⟨h.inv.add_dead src, h.rc, ?_⟩, by simp⟩
      rw [if_pos rfl, h.vals]
      exact List.map_congr_left (fun p hp => (valOf_append h.inv hp _).symm)
    | false =>
      simp only [Bool.false_eq_true, if_false, Heap.newRc]
      have hinv := (h.inv.add_new src).perm (List.perm_append_singleton _ _).symm
      refine ⟨_, _, rfl, by simp, ⟨hinv, ?_, ?_⟩, by simp⟩
      · intro p hp
        rcases List.mem_append.1 hp with hp | hp
        · exact h.rc p hp
        · simp only [List.mem_singleton] at hp; subst hp; simp
      · rw [if_neg (by simp), h.vals, List.map_append]
        congr 1
        · exact List.map_congr_left (fun p hp => (valOf_append h.inv hp _).symm)
        · cases src with
          | none => rfl
          | some v => simp [valOf]
  cases op with
  | make src oom =>
    obtain ⟨s', b, e, hb, hr, -⟩ := hmake src oom
    exact ⟨s', b, e, hb, hr⟩
  | dflt =>
    obtain ⟨s', b, e, hb, hr, hf⟩ := hmake none false
    have := hf rfl
    subst this
    exact ⟨s', false, e, by simp, hr⟩
  | copy i =>
    have hi : i < s.ps.length := hlen ▸ hop
    simp only [Cow.step]
    rw [cow_copy hi (h.rc _ (List.getElem_mem hi)), shared_copy h.inv hi, Out.ok_bind]
    refine ⟨_, _, rfl, by simp, h.inv.copy (List.getElem_mem hi), ?_, ?_⟩
    · intro p hp
      rcases List.mem_append.1 hp with hp | hp
      · exact h.rc p hp
      · simp only [List.mem_singleton] at hp; subst hp; exact h.rc _ (List.getElem_mem hi)
    · simp only [Values.step, h.get hi, copyHeap_objs]; rw [h.vals]; simp
  | swap i j =>
    have hi : i < s.ps.length := hlen ▸ hop.1
    have hj : j < s.ps.length := hlen ▸ hop.2
    simp only [Cow.step]
    rw [swapP_ok hi hj, Out.ok_bind]
    refine ⟨_, _, rfl, by simp, h.inv.perm (List.set_set_perm hi hj).symm, ?_, ?_⟩
    · exact mem_set_of (mem_set_of h.rc (h.rc _ (List.getElem_mem hj))) (h.rc _ (List.getElem_mem hi))
    · simp only [Values.step, h.get hi, h.get hj, List.map_set]; rw [h.vals]
  | destroy i =>
    have hi : i < s.ps.length := hlen ▸ hop
    simp only [Cow.step]
    rw [cow_destroy hi (h.rc _ (List.getElem_mem hi)), shared_destroy h.inv hi, Out.ok_bind]
    have hinv := (h.inv.perm (perm_cons hi)).drop
    refine ⟨_, _, rfl, by simp, hinv, fun p hp => h.rc p (List.mem_of_mem_eraseIdx hp), ?_⟩
    simp only [Values.step, h.vals, List.eraseIdx_map]
    exact List.map_congr_left (fun p hp => (valOf_mono (hinv.live p hp) dropHeap_objs.2).symm)
  | assign i j =>
    have hi : i < s.ps.length := hlen ▸ hop.1
    have hj : j < s.ps.length := hlen ▸ hop.2
    simp only [Cow.step]
    obtain ⟨e, hinv⟩ := shared_assign h.inv hi hj
    have e2 : Cow.assign s i j = Shared.assign s i j := by
      unfold Cow.assign Shared.assign
      rw [cow_copy hj (h.rc _ (List.getElem_mem hj)), shared_copy h.inv hj, vget_ok' hi]
      simp only [Out.ok_bind]
      rw [swapP_ok (by simp) (by simp; omega)]
      simp only [Out.ok_bind]
      rw [cow_destroy (by simp)]
      simp only [swap_last hi]
      rw [List.getElem_append_right (by simp)]
      simp only [List.getElem_singleton]
      exact h.rc _ (List.getElem_mem hi)
    rw [e2, e, Out.ok_bind]
    refine ⟨_, _, rfl, by simp, hinv, mem_set_of h.rc (h.rc _ (List.getElem_mem hj)), ?_⟩
    simp only [Values.step, h.get hj]
    rw [h.vals, ← List.map_set]
    apply List.map_congr_left
    intro p hp
    refine (valOf_mono (hinv.live p hp) ?_).symm
    intro o v ho
    have := dropHeap_objs.2 o v ho
    rwa [copyHeap_objs] at this
  | reset i src oom =>
    have hi : i < s.ps.length := hlen ▸ hop
    obtain ⟨s', b, e, hb, hrel, -, -⟩ := cow_reset_step h hi src oom
    refine ⟨s', b, ?_, hb, hrel⟩
    simp only [Shared.step, Cow.step, newObj_eq] at e ⊢
    rw [cow_reset hi (h.rc _ (List.getElem_mem hi))]
    exact e
  | resetSelf i oom =>
    have hi : i < s.ps.length := hlen ▸ hop
    obtain ⟨s', b, e, hb, hrel, hl, -⟩ := cow_clone h hi oom
    simp only [Cow.step]
    rw [e, Out.ok_bind]
    cases b with
    | true => exact ⟨_, _, rfl, hb, hrel⟩
    | false =>
      simp only [Bool.false_eq_true, if_false]
      have hi' : i < s'.ps.length := by omega
      rw [vget_ok' hi', Out.ok_bind]
      unfold Cow.resetPtr
      rw [vget_ok' hi', Out.ok_bind, if_pos rfl]
      exact ⟨_, _, rfl, by simp, hrel⟩
  | write i v oom =>
    have hi : i < s.ps.length := hlen ▸ hop.1
    obtain ⟨s', b, e, hb, hrel, hl, hu⟩ := cow_clone h hi oom
    simp only [Cow.step, Cow.write]
    rw [e, Out.ok_bind]
    cases b with
    | true => exact ⟨_, _, rfl, hb, hrel⟩
    | false =>
      simp only [Bool.false_eq_true, if_false]
      have hi' : i < s'.ps.length := by omega
      rw [vget_ok' hi', Out.ok_bind]
      have hg := hrel.get hi'
      cases hq : s'.ps[i].ptr with
      | none => rw [valOf_none hq] at hg; exact absurd hg hop.2
      | some o =>
        obtain ⟨w, hw⟩ := hrel.inv.live _ (List.getElem_mem hi') o hq
        have hlt := (List.getElem?_eq_some_iff.1 hw).1
        simp only [Heap.write, hw, Out.ok_bind]
        refine ⟨_, _, rfl, by simp, hrel.inv.write hw, hrel.rc, ?_⟩
        simp only [Values.step, Bool.false_eq_true, if_false]
        rw [hrel.vals]
        apply List.ext_getElem (by simp)
        intro j h1 h2
        simp only [List.length_set, List.length_map] at h1 h2
        by_cases e : i = j
        · subst e
          simp only [List.getElem_set_self, List.getElem_map]
          rw [valOf_live hq (v := v) (by simp [hlt])]
        · simp only [List.getElem_set_ne e, List.getElem_map]
          cases hqj : s'.ps[j].ptr with
          | none => rw [valOf_none hqj, valOf_none hqj]
          | some q =>
            have hne : o ≠ q := by
              rintro rfl
              have := hu rfl j h1 hi' (fun e' => e e'.symm) (hqj.trans hq.symm)
              rw [hqj] at this; cases this
            unfold valOf
            rw [hqj]
            simp only [set_get, if_neg hne]

/-- **cow_pointer** gives every pointer a value of its own: in any history of operations without misuse
the code has no undefined behaviour, every pointer reads as if copies were made at once (a write through
one pointer is seen by no other), operations that throw `bad_alloc` leave all values as they were, and
nothing is leaked. -/
theorem C56_cow (ops : List (Op V)) :
    (∃ s fl, Cow.run ⟨⟨[], []⟩, []⟩ ops = .ok (s, fl) ∧ fl.length = ops.length ∧
      (∀ i (h : i < fl.length) (h' : i < ops.length), fl[i] = true → ops[i].oom = true) ∧
      AgreesV s (Values.run [] ops fl)) ∨
    (∃ pre op post s fl, ops = pre ++ op :: post ∧ Cow.run ⟨⟨[], []⟩, []⟩ pre = .ok (s, fl) ∧
      fl.length = pre.length ∧ ¬ Values.Allowed (Values.run [] pre fl) op) := by
  have key : ∀ (ops : List (Op V)) (s : St V) (a : List (Option V)), RelV s a →
      (∃ s' fl, Cow.run s ops = .ok (s', fl) ∧ fl.length = ops.length ∧
        (∀ i (h : i < fl.length) (h' : i < ops.length), fl[i] = true → ops[i].oom = true) ∧
        RelV s' (Values.run a ops fl)) ∨
      (∃ pre op post s' fl, ops = pre ++ op :: post ∧ Cow.run s pre = .ok (s', fl) ∧
        fl.length = pre.length ∧ ¬ Values.Allowed (Values.run a pre fl) op) := by
    intro ops
    induction ops with
    | nil => intro s a h; left; exact ⟨s, [], rfl, rfl, by simp, h⟩
    | cons op ops ih =>
      intro s a h
      by_cases hop : Values.Allowed a op
      · obtain ⟨s1, b, e, hb, hrel⟩ := cow_step h op hop
        rcases ih s1 _ hrel with ⟨s2, fl, e2, hl, hfl, hr2⟩ | ⟨pre, op', post, s2, fl, rfl, e2, hl, hn⟩
        · left
          refine ⟨s2, b :: fl, ?_, by simp [hl], ?_, hr2⟩
          · simp [Cow.run, e, e2]
          · intro i h1 h2
            cases i with
            | zero => exact hb
            | succ i => exact hfl i (by simpa using h1) (by simpa using h2)
        · right
          refine ⟨op :: pre, op', post, s2, b :: fl, rfl, ?_, by simp [hl], hn⟩
          simp [Cow.run, e, e2]
      · right
        exact ⟨[], op, ops, s, [], rfl, rfl, rfl, hop⟩
  rcases key ops ⟨⟨[], []⟩, []⟩ [] ⟨⟨by simp, by simp, by simp, by simp, by simp, by simp, by simp⟩, by simp, rfl⟩ with
    ⟨s, fl, h1, h2, h3, h4⟩ | h
  · exact Or.inl ⟨s, fl, h1, h2, h3, h4.agrees⟩
  · exact Or.inr h

example : ∃ s, Cow.run ⟨⟨[], []⟩, []⟩ exOps = .ok (s,
    [false, false, true, true, false, false, false, false, false, false, false]) ∧ Cow.value s 0 = .ok (some 5) :=
  ⟨_, rfl, by decide⟩

/-! ## cloning_pointer and scoped_pointer -/

/-- What the program sees of a `cloning_pointer`. -/
def Values.stepC (a : List (Option V)) : Cloning.Op V → List (Option V)
  | .make src => a ++ [src]
  | .dflt => a ++ [none]
  | .copy i => a ++ [a.getD i none]
  | .swap i j => (a.set i (a.getD j none)).set j (a.getD i none)
  | .destroy i => a.eraseIdx i
  | .assign i j => a.set i (a.getD j none)
  | .reset i src => a.set i src
  | .clear i => a.set i none
  | .release i => a.set i none
  | .write i v => a.set i (some v)

def Values.AllowedC (a : List (Option V)) : Cloning.Op V → Prop
  | .make _ => True
  | .dflt => True
  | .copy i => i < a.length
  | .swap i j => i < a.length ∧ j < a.length
  | .destroy i => i < a.length
  | .assign i j => i < a.length ∧ j < a.length
  | .reset i _ => i < a.length
  | .clear i => i < a.length
  | .release i => i < a.length
  | .write i _ => i < a.length ∧ a.getD i none ≠ none

def Values.runC (a : List (Option V)) : List (Cloning.Op V) → List (Option V)
  | [] => a
  | op :: ops => Values.runC (Values.stepC a op) ops

/-- Every pointer reads as the value it should have; no object is held by two pointers, or by a pointer
and the caller; and every object alive is held by a pointer or was released to the caller. -/
structure AgreesO (s : OSt V) (a : List (Option V)) : Prop where
  count : s.ps.length = a.length
  values : ∀ i (h : i < a.length), Cloning.value s i = .ok a[i]
  unique : ((s.ps.filterMap fun p => p.ptr) ++ s.out).Nodup
  objs : ∀ o v, s.objs[o]? = some (some v) → o ∈ (s.ps.filterMap fun p => p.ptr) ++ s.out
  outs : ∀ o ∈ s.out, ∃ v, s.objs[o]? = some (some v)

def own (ps : List O) (out : List Nat) : List Nat := (ps.filterMap fun p => p.ptr) ++ out

structure InvO (objs : List (Option V)) (ps : List O) (out : List Nat) : Prop where
  del : ∀ p ∈ ps, p.ptr ≠ none → p.del = true
  live : ∀ o ∈ own ps out, ∃ v, objs[o]? = some (some v)
  owned : ∀ o v, objs[o]? = some (some v) → o ∈ own ps out
  nodup : (own ps out).Nodup

theorem InvO.perm {objs : List (Option V)} {ps qs : List O} {out : List Nat} (h : InvO objs ps out) (hp : ps.Perm qs) :
    InvO objs qs out := by
  have hq : (own ps out).Perm (own qs out) := (hp.filterMap _).append_right _
  exact ⟨fun p hm => h.del p (hp.mem_iff.2 hm), fun o ho => h.live o (hq.mem_iff.2 ho),
    fun o v ho => hq.mem_iff.1 (h.owned o v ho), hq.nodup_iff.1 h.nodup⟩

theorem own_cons_some {p : O} {o : Nat} (h : p.ptr = some o) (ps : List O) (out : List Nat) :
    own (p :: ps) out = o :: own ps out := by
  simp [own, List.filterMap_cons, h]

theorem own_cons_none {p : O} (h : p.ptr = none) (ps : List O) (out : List Nat) : own (p :: ps) out = own ps out := by
  simp [own, List.filterMap_cons, h]

theorem InvO.drop {objs : List (Option V)} {p : O} {ps : List O} {out : List Nat} (h : InvO objs (p :: ps) out) :
    InvO (setNone objs p.ptr) ps out := by
  cases hp : p.ptr with
  | none =>
    have e := own_cons_none hp ps out
    refine ⟨fun q hq => h.del q (by simp [hq]), ?_, ?_, ?_⟩
    · have := h.live; rwa [e] at this
    · have := h.owned; rwa [e] at this
    · have := h.nodup; rwa [e] at this
  | some o =>
    have e := own_cons_some hp ps out
    have hn := h.nodup
    rw [e, List.nodup_cons] at hn
    refine ⟨fun q hq => h.del q (by simp [hq]), ?_, ?_, hn.2⟩
    · intro q hq
      obtain ⟨v, hv⟩ := h.live q (by rw [e]; simp [hq])
      refine ⟨v, ?_⟩
      rw [setNone_get' (by intro e2; cases e2; exact hn.1 hq)]; exact hv
    · intro q v hv
      obtain ⟨h1, h2⟩ := setNone_get hv
      have := h.owned q v h1
      rw [e, List.mem_cons] at this
      rcases this with rfl | h3
      · exact absurd rfl h2
      · exact h3

theorem InvO.add {objs : List (Option V)} {ps : List O} {out : List Nat} (h : InvO objs ps out) (src : Option V) (d : Bool)
    (hd : src ≠ none → d = true) :
    InvO (objs ++ (src.map some).toList) (⟨src.map fun _ => objs.length, d⟩ :: ps) out := by
  cases src with
  | none =>
    have e := own_cons_none (p := ⟨none, d⟩) rfl ps out
    simp only [Option.map_none, Option.toList_none, List.append_nil]
    refine ⟨?_, by rw [e]; exact h.live, by rw [e]; exact h.owned, by rw [e]; exact h.nodup⟩
    intro p hp
    rcases List.mem_cons.1 hp with rfl | hp
    · simp
    · exact h.del p hp
  | some v =>
    have e := own_cons_some (p := ⟨some objs.length, d⟩) rfl ps out
    simp only [Option.map_some, Option.toList_some]
    refine ⟨?_, ?_, ?_, ?_⟩
    · intro p hp
      rcases List.mem_cons.1 hp with rfl | hp
      · intro _; exact hd (by simp)
      · exact h.del p hp
    · rw [e]
      intro o ho
      rcases List.mem_cons.1 ho with rfl | ho
      · exact ⟨v, by simp⟩
      · obtain ⟨w, hw⟩ := h.live o ho
        exact ⟨w, by rw [List.getElem?_append_left (List.getElem?_eq_some_iff.1 hw).1]; exact hw⟩
    · rw [e]
      intro o w hw
      rcases Nat.lt_or_ge o objs.length with hlt | hge
      · rw [List.getElem?_append_left hlt] at hw
        exact List.mem_cons_of_mem _ (h.owned o w hw)
      · rcases Nat.eq_or_lt_of_le hge with e | e
        · rw [e]; exact List.mem_cons_self
        · rw [List.getElem?_eq_none (by simp; omega)] at hw; cases hw
    · rw [e, List.nodup_cons]
      refine ⟨?_, h.nodup⟩
      intro hc
      obtain ⟨w, hw⟩ := h.live _ hc
      simp at hw

def valOfO (objs : List (Option V)) (p : O) : Option V := match p.ptr with
  | none => none
  | some o => (objs[o]?).getD none

theorem valOfO_live {objs : List (Option V)} {p : O} {o : Nat} {v : V} (hp : p.ptr = some o) (h : objs[o]? = some (some v)) :
    valOfO objs p = some v := by
  unfold valOfO; rw [hp]; simp only [h]; rfl

theorem valOfO_none {objs : List (Option V)} {p : O} (hp : p.ptr = none) : valOfO objs p = none := by
  unfold valOfO; rw [hp]

structure RelO (s : OSt V) (a : List (Option V)) : Prop where
  inv : InvO s.objs s.ps s.out
  vals : a = s.ps.map (valOfO s.objs)

theorem RelO.length {s : OSt V} {a : List (Option V)} (h : RelO s a) : a.length = s.ps.length := by rw [h.vals]; simp

theorem RelO.get {s : OSt V} {a : List (Option V)} (h : RelO s a) {i : Nat} (hi : i < s.ps.length) :
    a.getD i none = valOfO s.objs s.ps[i] := by
  rw [h.vals, List.getD_eq_getElem?_getD, List.getElem?_map, List.getElem?_eq_getElem hi]; rfl

theorem mem_own {ps : List O} {out : List Nat} {p : O} {o : Nat} (hp : p ∈ ps) (ho : p.ptr = some o) : o ∈ own ps out := by
  unfold own
  exact List.mem_append_left _ (List.mem_filterMap.2 ⟨p, hp, ho⟩)

theorem InvO.livep {objs : List (Option V)} {ps : List O} {out : List Nat} (h : InvO objs ps out) {p : O} (hp : p ∈ ps)
    {o : Nat} (ho : p.ptr = some o) : ∃ v, objs[o]? = some (some v) := h.live o (mem_own hp ho)

theorem valOfO_mono {objs objs' : List (Option V)} {p : O}
    (hl : ∀ o, p.ptr = some o → ∃ v, objs'[o]? = some (some v))
    (hm : ∀ (o : Nat) (v : V), objs'[o]? = some (some v) → objs[o]? = some (some v)) : valOfO objs' p = valOfO objs p := by
  cases hp : p.ptr with
  | none => rw [valOfO_none hp, valOfO_none hp]
  | some o =>
    obtain ⟨v, hv⟩ := hl o hp
    rw [valOfO_live hp hv, valOfO_live hp (hm o v hv)]

theorem valOfO_append {objs : List (Option V)} {ps : List O} {out : List Nat} (h : InvO objs ps out) {p : O} (hp : p ∈ ps)
    (l : List (Option V)) : valOfO (objs ++ l) p = valOfO objs p := by
  cases hq : p.ptr with
  | none => rw [valOfO_none hq, valOfO_none hq]
  | some o =>
    obtain ⟨v, hv⟩ := h.livep hp hq
    rw [valOfO_live hq hv, valOfO_live hq]
    rw [List.getElem?_append_left (List.getElem?_eq_some_iff.1 hv).1]; exact hv

theorem RelO.agrees {s : OSt V} {a : List (Option V)} (h : RelO s a) : AgreesO s a := by
  refine ⟨h.length.symm, ?_, h.inv.nodup, h.inv.owned, ?_⟩
  · intro i hi
    have hi' : i < s.ps.length := h.length ▸ hi
    have hg := h.get hi'
    rw [getD_eq hi] at hg
    rw [hg]
    unfold Cloning.value
    rw [vget_ok' hi', Out.ok_bind]
    cases hp : s.ps[i].ptr with
    | none => rw [valOfO_none hp]; rfl
    | some o =>
      obtain ⟨v, hv⟩ := h.inv.livep (List.getElem_mem hi') hp
      rw [valOfO_live hp hv]
      simp [hv]
  · intro o ho
    exact h.inv.live o (List.mem_append_right _ ho)

theorem permO {ps : List O} {i : Nat} (h : i < ps.length) : ps.Perm (ps[i] :: ps.eraseIdx i) :=
  (List.getElem_cons_eraseIdx_perm h).symm

theorem setO {ps : List O} {i : Nat} (h : i < ps.length) (a : O) : (a :: ps.eraseIdx i).Perm (ps.set i a) :=
  (List.set_perm_cons_eraseIdx h a).symm

theorem del_ok {objs : List (Option V)} {p : O} (hd : p.ptr ≠ none → p.del = true)
    (hl : ∀ o, p.ptr = some o → ∃ v, objs[o]? = some (some v)) : Cloning.del objs p = .ok (setNone objs p.ptr) := by
  unfold Cloning.del
  cases hp : p.ptr with
  | none => simp [setNone]
  | some o =>
    obtain ⟨v, hv⟩ := hl o hp
    rw [if_pos (hd (by rw [hp]; simp))]
    simp [hv, setNone]

theorem copyO_ok {s : OSt V} {a : List (Option V)} (h : RelO s a) {i : Nat} (hi : i < s.ps.length) :
    ∃ p, Cloning.copy s i = .ok ⟨s.objs ++ ((valOfO s.objs s.ps[i]).map some).toList, s.ps ++ [p], s.out⟩ ∧
      p = ⟨(valOfO s.objs s.ps[i]).map fun _ => s.objs.length, s.ps[i].del⟩ ∧
      (valOfO s.objs s.ps[i] ≠ none → s.ps[i].del = true) := by
  refine ⟨_, ?_, rfl, ?_⟩
  · unfold Cloning.copy
    rw [vget_ok' hi, Out.ok_bind]
    cases hp : s.ps[i].ptr with
    | none => rw [valOfO_none hp]; simp
    | some o =>
      obtain ⟨v, hv⟩ := h.inv.livep (List.getElem_mem hi) hp
      rw [valOfO_live hp hv]
      have hd := h.inv.del _ (List.getElem_mem hi) (by rw [hp]; simp)
      simp [hd, hv]
  · intro hne
    refine h.inv.del _ (List.getElem_mem hi) ?_
    intro hp
    exact hne (valOfO_none hp)

theorem RelO.app {s : OSt V} {a : List (Option V)} (h : RelO s a) (src : Option V) (d : Bool) (hd : src ≠ none → d = true) :
    RelO ⟨s.objs ++ (src.map some).toList, s.ps ++ [⟨src.map fun _ => s.objs.length, d⟩], s.out⟩ (a ++ [src]) := by
  refine ⟨(h.inv.add src d hd).perm (List.perm_append_singleton _ _).symm, ?_⟩
  rw [h.vals, List.map_append]
  congr 1
  · exact List.map_congr_left (fun p hp => (valOfO_append h.inv hp _).symm)
  · cases src with
    | none => rfl
    | some v => simp [valOfO]

theorem swapO_ok {ps : List O} {i j : Nat} (hi : i < ps.length) (hj : j < ps.length) :
    Cloning.swap ps i j = .ok ((ps.set i ps[j]).set j ps[i]) := by
  unfold Cloning.swap
  rw [vget_ok' hi, Out.ok_bind, vget_ok' hj, Out.ok_bind, vset_ok' hi, Out.ok_bind, vset_ok' (by simpa using hj)]

theorem RelO.swap {s : OSt V} {a : List (Option V)} (h : RelO s a) {i j : Nat} (hi : i < s.ps.length) (hj : j < s.ps.length) :
    RelO ⟨s.objs, (s.ps.set i s.ps[j]).set j s.ps[i], s.out⟩ ((a.set i (a.getD j none)).set j (a.getD i none)) := by
  refine ⟨h.inv.perm (List.set_set_perm hi hj).symm, ?_⟩
  rw [h.get hi, h.get hj, List.map_set, List.map_set, h.vals]

theorem destroyO {s : OSt V} {a : List (Option V)} (h : RelO s a) {i : Nat} (hi : i < s.ps.length) :
    ∃ s', Cloning.destroy s i = .ok s' ∧ RelO s' (a.eraseIdx i) := by
  have hp := h.inv.perm (permO hi)
  unfold Cloning.destroy
  rw [vget_ok' hi, Out.ok_bind, del_ok (hp.del _ (by simp)) (fun o ho => hp.livep (by simp) ho), Out.ok_bind]
  refine ⟨_, rfl, hp.drop, ?_⟩
  simp only []
  rw [h.vals, List.eraseIdx_map]
  exact List.map_congr_left (fun p hp' =>
    (valOfO_mono (fun o ho => hp.drop.livep hp' ho) (fun o v hv => (setNone_get hv).1)).symm)

/-- Replacing pointer `i` after deleting what it had. -/
theorem resetO {s : OSt V} {a : List (Option V)} (h : RelO s a) {i : Nat} (hi : i < s.ps.length) (src : Option V) (d : Bool)
    (hd : src ≠ none → d = true) :
    Cloning.del (s.objs ++ (src.map some).toList) s.ps[i] = .ok (setNone (s.objs ++ (src.map some).toList) s.ps[i].ptr) ∧
    RelO ⟨setNone (s.objs ++ (src.map some).toList) s.ps[i].ptr, s.ps.set i ⟨src.map fun _ => s.objs.length, d⟩, s.out⟩
      (a.set i src) := by
  have hp := h.inv.perm (permO hi)
  have hlt : ∀ o, s.ps[i].ptr = some o → o < s.objs.length := by
    intro o ho
    obtain ⟨v, hv⟩ := hp.livep (by simp) ho
    exact (List.getElem?_eq_some_iff.1 hv).1
  have hinv := ((hp.drop).add src d hd).perm (setO hi _)
  rw [setNone_length, ← setNone_append hlt] at hinv
  refine ⟨del_ok (hp.del _ (by simp)) ?_, hinv, ?_⟩
  · intro o ho
    obtain ⟨v, hv⟩ := hp.livep (by simp) ho
    exact ⟨v, by rw [List.getElem?_append_left (hlt o ho)]; exact hv⟩
  · rw [h.vals]
    apply List.ext_getElem (by simp)
    intro j h1 h2
    simp only [List.length_set, List.length_map] at h1 h2
    by_cases e : i = j
    · subst e
      simp only [List.getElem_set_self, List.getElem_map]
      cases src with
      | none => rw [valOfO_none rfl]
      | some v =>
        rw [valOfO_live rfl]
        rw [setNone_append hlt]
        rw [List.getElem?_append_right (by simp)]
        simp
    · simp only [List.getElem_set_ne e, List.getElem_map]
      have hm : s.ps[j] ∈ s.ps.set i ⟨src.map fun _ => s.objs.length, d⟩ := by
        rw [List.mem_iff_getElem]; exact ⟨j, by simpa using h2, List.getElem_set_ne e _⟩
      rw [valOfO_mono (fun o ho => hinv.livep hm ho) (fun o v hv => (setNone_get hv).1),
        valOfO_append h.inv (List.getElem_mem h1)]

theorem swapO_last {ps : List O} {i : Nat} (h : i < ps.length) (a : O) :
    (((ps ++ [a]).set ps.length ((ps ++ [a])[i]'(by simp; omega))).set i ((ps ++ [a])[ps.length]'(by simp)))
      = ps.set i a ++ [ps[i]] := by
  have e1 : (ps ++ [a])[ps.length]'(by simp) = a := by simp
  have e2 : (ps ++ [a])[i]'(by simp; omega) = ps[i] := List.getElem_append_left h
  rw [e1, e2, List.set_append_right _ _ (Nat.le_refl _)]
  simp only [Nat.sub_self, List.set_cons_zero]
  rw [List.set_append_left _ _ h]

theorem clone_step {s : OSt V} {a : List (Option V)} (h : RelO s a) (op : Cloning.Op V) (hop : Values.AllowedC a op) :
    ∃ s', Cloning.step s op = .ok s' ∧ RelO s' (Values.stepC a op) := by
  have hlen := h.length
  cases op with
  | make src =>
    have := h.app src true (fun _ => rfl)
    cases src with
    | none => exact ⟨_, rfl, by simpa [Values.stepC] using this⟩
    | some v => exact ⟨_, rfl, this⟩
  | dflt =>
    have := h.app none false (by simp)
    exact ⟨_, rfl, by simpa [Values.stepC] using this⟩
  | copy i =>
    have hi : i < s.ps.length := hlen ▸ hop
    obtain ⟨p, e, hp, hd⟩ := copyO_ok h hi
    refine ⟨_, e, ?_⟩
    rw [hp]
    have := h.app _ s.ps[i].del hd
    simp only [Values.stepC, h.get hi]
    exact this
  | swap i j =>
    have hi : i < s.ps.length := hlen ▸ hop.1
    have hj : j < s.ps.length := hlen ▸ hop.2
    simp only [Cloning.step]
    rw [swapO_ok hi hj, Out.ok_bind]
    exact ⟨_, rfl, h.swap hi hj⟩
  | destroy i => exact destroyO h (hlen ▸ hop)
  | assign i j =>
    have hi : i < s.ps.length := hlen ▸ hop.1
    have hj : j < s.ps.length := hlen ▸ hop.2
    obtain ⟨p, e, hp, hd⟩ := copyO_ok h hj
    have h1 := h.app _ s.ps[j].del hd
    rw [← hp] at h1
    simp only [Cloning.step, Cloning.assign]
    rw [vget_ok' hi, Out.ok_bind, e, Out.ok_bind]
    simp only []
    rw [swapO_ok (by simp) (by simp; omega), Out.ok_bind]
    have h2 := h1.swap (i := s.ps.length) (j := i) (by simp) (by simp; omega)
    obtain ⟨s', e3, h3⟩ := destroyO h2 (i := s.ps.length) (by simp)
    refine ⟨s', e3, ?_⟩
    simp only [Values.stepC]
    rw [← h.get hj] at h3
    have hal : a.length = s.ps.length := hlen
    have hia : i < a.length := by omega
    have e4 : ((a ++ [a.getD j none]).set s.ps.length ((a ++ [a.getD j none]).getD i none)).set i
        ((a ++ [a.getD j none]).getD s.ps.length none) = a.set i (a.getD j none) ++ [a[i]] := by
      have e1 : (a ++ [a.getD j none]).getD s.ps.length none = a.getD j none := by
        rw [List.getD_eq_getElem?_getD, List.getElem?_append_right (by omega)]; simp [hal]
      have e2 : (a ++ [a.getD j none]).getD i none = a[i] := by
        rw [List.getD_eq_getElem?_getD, List.getElem?_append_left hia, List.getElem?_eq_getElem hia]; rfl
      rw [e1, e2, List.set_append_right _ _ (by omega)]
      simp only [hal, Nat.sub_self, List.set_cons_zero]
      rw [List.set_append_left _ _ hia]
    rw [e4] at h3
    have e5 := eraseIdx_last (a.set i (a.getD j none)) a[i]
    rw [List.length_set, hal] at e5
    rwa [e5] at h3
  | reset i src =>
    have hi : i < s.ps.length := hlen ▸ hop
    obtain ⟨e, hr⟩ := resetO h hi src true (fun _ => rfl)
    simp only [Cloning.step]
    rw [vget_ok' hi, Out.ok_bind]
    cases src with
    | none =>
      simp only [Option.map_none, Option.toList_none, List.append_nil] at e hr ⊢
      rw [e, Out.ok_bind, vset_ok' hi, Out.ok_bind]
      exact ⟨_, rfl, hr⟩
    | some v =>
      simp only [Option.map_some, Option.toList_some] at e hr ⊢
      rw [e, Out.ok_bind, vset_ok' hi, Out.ok_bind]
      exact ⟨_, rfl, hr⟩
  | clear i =>
    have hi : i < s.ps.length := hlen ▸ hop
    obtain ⟨e, hr⟩ := resetO h hi none false (by simp)
    simp only [Cloning.step]
    simp only [Option.map_none, Option.toList_none, List.append_nil] at e hr
    rw [vget_ok' hi, Out.ok_bind, e, Out.ok_bind, vset_ok' hi, Out.ok_bind]
    exact ⟨_, rfl, hr⟩
  | release i =>
    have hi : i < s.ps.length := hlen ▸ hop
    simp only [Cloning.step]
    rw [vget_ok' hi, Out.ok_bind, vset_ok' hi, Out.ok_bind]
    have hp := h.inv.perm (permO hi)
    have hperm : (own (s.ps[i] :: s.ps.eraseIdx i) s.out).Perm
        (own (⟨none, false⟩ :: s.ps.eraseIdx i) (s.out ++ s.ps[i].ptr.toList)) := by
      rw [own_cons_none (p := ⟨none, false⟩) rfl]
      cases hq : s.ps[i].ptr with
      | none => rw [own_cons_none hq]; simp
      | some o =>
        rw [own_cons_some hq]
        unfold own
        rw [← List.append_assoc]
        exact (List.perm_append_singleton _ _).symm
    have hinv : InvO s.objs (⟨none, false⟩ :: s.ps.eraseIdx i) (s.out ++ s.ps[i].ptr.toList) := by
      refine ⟨?_, fun o ho => hp.live o (hperm.mem_iff.2 ho), fun o v ho => hperm.mem_iff.1 (hp.owned o v ho),
        hperm.nodup_iff.1 hp.nodup⟩
      intro p hm
      rcases List.mem_cons.1 hm with rfl | hm
      · simp
      · exact hp.del p (by simp [hm])
    refine ⟨_, rfl, hinv.perm (setO hi _), ?_⟩
    simp only [Values.stepC, List.map_set]
    rw [h.vals, valOfO_none rfl]
  | write i v =>
    have hi : i < s.ps.length := hlen ▸ hop.1
    simp only [Cloning.step]
    rw [vget_ok' hi, Out.ok_bind]
    have hg := h.get hi
    cases hq : s.ps[i].ptr with
    | none => rw [valOfO_none hq] at hg; exact absurd hg hop.2
    | some o =>
      obtain ⟨w, hw⟩ := h.inv.livep (List.getElem_mem hi) hq
      have hlt := (List.getElem?_eq_some_iff.1 hw).1
      simp only [hw]
      refine ⟨_, rfl, ⟨h.inv.del, ?_, ?_, h.inv.nodup⟩, ?_⟩
      · intro q hq'
        simp only [set_get]
        by_cases e : o = q
        · rw [if_pos e, if_pos hlt]; exact ⟨v, rfl⟩
        · rw [if_neg e]; exact h.inv.live q hq'
      · intro q u hu
        simp only [set_get] at hu
        by_cases e : o = q
        · subst e; exact h.inv.owned o w hw
        · rw [if_neg e] at hu; exact h.inv.owned q u hu
      · simp only [Values.stepC]
        rw [h.vals]
        apply List.ext_getElem (by simp)
        intro j h1 h2
        simp only [List.length_set, List.length_map] at h1 h2
        by_cases e : i = j
        · subst e
          simp only [List.getElem_set_self, List.getElem_map]
          rw [valOfO_live hq (v := v) (by simp [hlt])]
        · simp only [List.getElem_set_ne e, List.getElem_map]
          cases hqj : s.ps[j].ptr with
          | none => rw [valOfO_none hqj, valOfO_none hqj]
          | some q =>
            have hne : o ≠ q := by
              rintro rfl
              have hp := h.inv.perm (permO hi)
              have hn := hp.nodup
              rw [own_cons_some hq, List.nodup_cons] at hn
              refine hn.1 (mem_own (p := s.ps[j]) ?_ hqj)
              rw [List.mem_eraseIdx_iff_getElem]
              exact ⟨j, h1, fun e' => e e'.symm, rfl⟩
            unfold valOfO
            rw [hqj]
            simp only [set_get, if_neg hne]

/-- **cloning_pointer** (and, without copying, **scoped_pointer**) owns its object alone: in any history of
operations without misuse there is no undefined behaviour, every pointer reads as its own value, and every
object is held by exactly one pointer or was released, until it is deleted. -/
theorem C56_cloning (ops : List (Cloning.Op V)) :
    (∃ s, Cloning.run ⟨[], [], []⟩ ops = .ok s ∧ AgreesO s (Values.runC [] ops)) ∨
    (∃ pre op post, ops = pre ++ op :: post ∧ (∃ s, Cloning.run ⟨[], [], []⟩ pre = .ok s) ∧
      ¬ Values.AllowedC (Values.runC [] pre) op) := by
  have key : ∀ (ops : List (Cloning.Op V)) (s : OSt V) (a : List (Option V)), RelO s a →
      (∃ s', Cloning.run s ops = .ok s' ∧ RelO s' (Values.runC a ops)) ∨
      (∃ pre op post, ops = pre ++ op :: post ∧ (∃ s', Cloning.run s pre = .ok s') ∧
        ¬ Values.AllowedC (Values.runC a pre) op) := by
    intro ops
    induction ops with
    | nil => intro s a h; left; exact ⟨s, rfl, h⟩
    | cons op ops ih =>
      intro s a h
      by_cases hop : Values.AllowedC a op
      · obtain ⟨s1, e, hrel⟩ := clone_step h op hop
        rcases ih s1 _ hrel with ⟨s2, e2, hr2⟩ | ⟨pre, op', post, rfl, ⟨s2, e2⟩, hn⟩
        · left; exact ⟨s2, by simp [Cloning.run, e, e2], hr2⟩
        · right; exact ⟨op :: pre, op', post, rfl, ⟨s2, by simp [Cloning.run, e, e2]⟩, hn⟩
      · right; exact ⟨[], op, ops, rfl, ⟨s, rfl⟩, hop⟩
  rcases key ops ⟨[], [], []⟩ [] ⟨⟨by simp, by simp [own], by simp, by simp [own]⟩, rfl⟩ with ⟨s, h1, h2⟩ | h
  · exact Or.inl ⟨s, h1, h2.agrees⟩
  · exact Or.inr h

example : Cloning.run ⟨[], [], []⟩ [.make (some 1), .copy 0, .write 1 2, .dflt, .assign 2 1, .release 0, .destroy 1] =
    .ok ⟨[some 1, none, some 2], [⟨none, false⟩, ⟨some 2, true⟩], [0]⟩ := by decide

end Ptr
end Ringing
