import Verif.Model.Pointers
import Mathlib.Data.List.Basic
import Mathlib.Data.List.Perm.Basic
/- Helper lemmas: the invariant of counted pointers. -/
namespace Ringing
namespace Ptr
variable {V : Type}

def cnt (ps : List P) (r : Nat) : Nat := ps.countP (fun p => p.rc = some r)

structure Inv (h : Heap V) (ps : List P) : Prop where
  rcOk : ∀ p ∈ ps, ∀ r, p.rc = some r → h.rcs[r]? = some (some (cnt ps r : Int))
  rcFree : ∀ r n, h.rcs[r]? = some (some n) → ∃ p ∈ ps, p.rc = some r
  same1 : ∀ p ∈ ps, ∀ q ∈ ps, ∀ r, p.rc = some r → q.rc = some r → p.ptr = q.ptr
  same2 : ∀ p ∈ ps, ∀ q ∈ ps, ∀ o, p.ptr = some o → q.ptr = some o → p.rc = q.rc
  null : ∀ p ∈ ps, p.rc = none → p.ptr = none
  live : ∀ p ∈ ps, ∀ o, p.ptr = some o → ∃ v, h.objs[o]? = some (some v)
  owned : ∀ o v, h.objs[o]? = some (some v) → ∃ p ∈ ps, p.ptr = some o

theorem Inv.perm {h : Heap V} {ps qs : List P} (hi : Inv h ps) (hp : ps.Perm qs) : Inv h qs := by
  have hm : ∀ p, p ∈ ps ↔ p ∈ qs := fun p => hp.mem_iff
  constructor
  · intro p hp' r hr
    have := hi.rcOk p ((hm p).2 hp') r hr
    unfold cnt at this ⊢
    rwa [hp.countP_eq] at this
  · intro r n h1
    obtain ⟨p, h2, h3⟩ := hi.rcFree r n h1
    exact ⟨p, (hm p).1 h2, h3⟩
  · intro p h1 q h2; exact hi.same1 p ((hm p).2 h1) q ((hm q).2 h2)
  · intro p h1 q h2; exact hi.same2 p ((hm p).2 h1) q ((hm q).2 h2)
  · intro p h1; exact hi.null p ((hm p).2 h1)
  · intro p h1; exact hi.live p ((hm p).2 h1)
  · intro o v h1
    obtain ⟨p, h2, h3⟩ := hi.owned o v h1
    exact ⟨p, (hm p).1 h2, h3⟩

theorem getD_eq {α : Type} {l : List α} {i : Nat} (h : i < l.length) (d : α) : l.getD i d = l[i] := by
  simp [h]

theorem perm_cons {ps : List P} {i : Nat} (h : i < ps.length) : ps.Perm (ps[i] :: ps.eraseIdx i) :=
  (List.getElem_cons_eraseIdx_perm h).symm

theorem cnt_cons (p : P) (ps : List P) (r : Nat) : cnt (p :: ps) r = cnt ps r + if p.rc = some r then 1 else 0 := by
  simp [cnt, List.countP_cons]

theorem cnt_zero {ps : List P} {r : Nat} : cnt ps r = 0 ↔ ∀ p ∈ ps, p.rc ≠ some r := by
  simp [cnt, List.countP_eq_zero]

theorem cnt_pos {ps : List P} {r : Nat} : 0 < cnt ps r ↔ ∃ p ∈ ps, p.rc = some r := by
  simp [cnt, List.countP_pos_iff]

/-- A pointer without a count goes away. -/
theorem Inv.drop_null {h : Heap V} {p : P} {ps : List P} (hi : Inv h (p :: ps)) (hr : p.rc = none) : Inv h ps := by
  have hp := hi.null p (by simp) hr
  constructor
  · intro q hq r hqr
    have := hi.rcOk q (by simp [hq]) r hqr
    rwa [cnt_cons, if_neg (by simp [hr])] at this
  · intro r n h1
    obtain ⟨q, h2, h3⟩ := hi.rcFree r n h1
    rcases List.mem_cons.1 h2 with rfl | h2
    · simp [hr] at h3
    · exact ⟨q, h2, h3⟩
  · intro a h1 b h2; exact hi.same1 a (by simp [h1]) b (by simp [h2])
  · intro a h1 b h2; exact hi.same2 a (by simp [h1]) b (by simp [h2])
  · intro a h1; exact hi.null a (by simp [h1])
  · intro a h1; exact hi.live a (by simp [h1])
  · intro o v h1
    obtain ⟨q, h2, h3⟩ := hi.owned o v h1
    rcases List.mem_cons.1 h2 with rfl | h2
    · simp [hp] at h3
    · exact ⟨q, h2, h3⟩

/-- A pointer without a count appears. -/
theorem Inv.add_null {h : Heap V} {ps : List P} (hi : Inv h ps) : Inv h (⟨none, none⟩ :: ps) := by
  constructor
  · intro q hq r hqr
    rw [cnt_cons, if_neg (by simp)]
    rcases List.mem_cons.1 hq with rfl | hq
    · simp at hqr
    · exact hi.rcOk q hq r hqr
  · intro r n h1
    obtain ⟨q, h2, h3⟩ := hi.rcFree r n h1
    exact ⟨q, by simp [h2], h3⟩
  · intro a h1 b h2 r ha hb
    rcases List.mem_cons.1 h1 with rfl | h1
    · simp at ha
    rcases List.mem_cons.1 h2 with rfl | h2
    · simp at hb
    exact hi.same1 a h1 b h2 r ha hb
  · intro a h1 b h2 r ha hb
    rcases List.mem_cons.1 h1 with rfl | h1
    · simp at ha
    rcases List.mem_cons.1 h2 with rfl | h2
    · simp at hb
    exact hi.same2 a h1 b h2 r ha hb
  · intro a h1
    rcases List.mem_cons.1 h1 with rfl | h1
    · simp
    · exact hi.null a h1
  · intro a h1
    rcases List.mem_cons.1 h1 with rfl | h1
    · simp
    · exact hi.live a h1
  · intro o v h1
    obtain ⟨q, h2, h3⟩ := hi.owned o v h1
    exact ⟨q, by simp [h2], h3⟩

theorem set_get {α : Type} {l : List α} {i j : Nat} {a : α} : (l.set i a)[j]? =
    if i = j then (if i < l.length then some a else none) else l[j]? := by
  rw [List.getElem?_set]

/-- One of several owners goes away. -/
theorem Inv.drop_shared {h : Heap V} {p : P} {ps : List P} (hi : Inv h (p :: ps)) {r : Nat} (hr : p.rc = some r)
    (hc : 0 < cnt ps r) : Inv ⟨h.objs, h.rcs.set r (some (cnt ps r : Int))⟩ ps := by
  have hrc := hi.rcOk p (by simp) r hr
  have hlt : r < h.rcs.length := (List.getElem?_eq_some_iff.1 hrc).1
  obtain ⟨q, hq, hqr⟩ := cnt_pos.1 hc
  constructor
  · intro a ha s hs
    simp only [set_get]
    by_cases e : r = s
    · subst e; simp [hlt]
    · rw [if_neg e]
      have := hi.rcOk a (by simp [ha]) s hs
      rwa [cnt_cons, if_neg (by rw [hr]; simpa using e)] at this
  · intro s n h1
    simp only [set_get] at h1
    by_cases e : r = s
    · subst e; exact ⟨q, hq, hqr⟩
    · rw [if_neg e] at h1
      obtain ⟨a, h2, h3⟩ := hi.rcFree s n h1
      rcases List.mem_cons.1 h2 with rfl | h2
      · rw [hr] at h3; simp only [Option.some.injEq] at h3; exact absurd h3 e
      · exact ⟨a, h2, h3⟩
  · intro a h1 b h2; exact hi.same1 a (by simp [h1]) b (by simp [h2])
  · intro a h1 b h2; exact hi.same2 a (by simp [h1]) b (by simp [h2])
  · intro a h1; exact hi.null a (by simp [h1])
  · intro a h1; exact hi.live a (by simp [h1])
  · intro o v h1
    obtain ⟨a, h2, h3⟩ := hi.owned o v h1
    rcases List.mem_cons.1 h2 with rfl | h2
    · exact ⟨q, hq, (hi.same1 a (by simp) q (by simp [hq]) r hr hqr) ▸ h3⟩
    · exact ⟨a, h2, h3⟩

def setNone (objs : List (Option V)) : Option Nat → List (Option V)
  | none => objs
  | some o => objs.set o none

theorem delete_live {h : Heap V} {p : Option Nat} (hl : ∀ o, p = some o → ∃ v, h.objs[o]? = some (some v)) :
    h.delete p = .ok ⟨setNone h.objs p, h.rcs⟩ := by
  cases p with
  | none => rfl
  | some o =>
    obtain ⟨v, hv⟩ := hl o rfl
    simp [Heap.delete, hv, setNone]

theorem setNone_get {objs : List (Option V)} {p : Option Nat} {o : Nat} {v : V}
    (h : (setNone objs p)[o]? = some (some v)) : objs[o]? = some (some v) ∧ p ≠ some o := by
  cases p with
  | none => exact ⟨h, by simp⟩
  | some a =>
    simp only [setNone, set_get] at h
    by_cases e : a = o
    · subst e; rw [if_pos rfl] at h; split at h <;> simp at h
    · rw [if_neg e] at h; exact ⟨h, by simpa using e⟩

theorem setNone_get' {objs : List (Option V)} {p : Option Nat} {o : Nat}
    (h : p ≠ some o) : (setNone objs p)[o]? = objs[o]? := by
  cases p with
  | none => rfl
  | some a =>
    simp only [setNone, set_get]
    rw [if_neg (by intro e; exact h (by rw [e]))]

@[simp] theorem setNone_length {objs : List (Option V)} {p : Option Nat} : (setNone objs p).length = objs.length := by
  cases p <;> simp [setNone]

/-- The last owner goes away. -/
theorem Inv.drop_last {h : Heap V} {p : P} {ps : List P} (hi : Inv h (p :: ps)) {r : Nat} (hr : p.rc = some r)
    (hc : cnt ps r = 0) : Inv ⟨setNone h.objs p.ptr, h.rcs.set r none⟩ ps := by
  have hne := cnt_zero.1 hc
  have hpo : ∀ q ∈ ps, ∀ o, q.ptr = some o → p.ptr ≠ some o := by
    intro q hq o ho hp
    exact hne q hq ((hi.same2 q (by simp [hq]) p (by simp) o ho hp).trans hr)
  constructor
  · intro a ha s hs
    simp only [set_get]
    have e : r ≠ s := by rintro rfl; exact hne a ha hs
    rw [if_neg e]
    have := hi.rcOk a (by simp [ha]) s hs
    rwa [cnt_cons, if_neg (by rw [hr]; simpa using e)] at this
  · intro s n h1
    simp only [set_get] at h1
    by_cases e : r = s
    · subst e; rw [if_pos rfl] at h1; split at h1 <;> simp at h1
    · rw [if_neg e] at h1
      obtain ⟨a, h2, h3⟩ := hi.rcFree s n h1
      rcases List.mem_cons.1 h2 with rfl | h2
      · rw [hr] at h3; simp only [Option.some.injEq] at h3; exact absurd h3 e
      · exact ⟨a, h2, h3⟩
  · intro a h1 b h2; exact hi.same1 a (by simp [h1]) b (by simp [h2])
  · intro a h1 b h2; exact hi.same2 a (by simp [h1]) b (by simp [h2])
  · intro a h1; exact hi.null a (by simp [h1])
  · intro a h1 o ho
    obtain ⟨v, hv⟩ := hi.live a (by simp [h1]) o ho
    exact ⟨v, by rw [setNone_get' (hpo a h1 o ho)]; exact hv⟩
  · intro o v h1
    obtain ⟨h1, hn⟩ := setNone_get h1
    obtain ⟨a, h2, h3⟩ := hi.owned o v h1
    rcases List.mem_cons.1 h2 with rfl | h2
    · exact absurd h3 hn
    · exact ⟨a, h2, h3⟩

/-- The heap of a destruction. -/
def dropHeap (h : Heap V) (p : P) (ps : List P) : Heap V :=
  match p.rc with
  | none => h
  | some r => if cnt ps r = 0 then ⟨setNone h.objs p.ptr, h.rcs.set r none⟩ else ⟨h.objs, h.rcs.set r (some (cnt ps r : Int))⟩

theorem Inv.drop {h : Heap V} {p : P} {ps : List P} (hi : Inv h (p :: ps)) : Inv (dropHeap h p ps) ps := by
  unfold dropHeap
  split
  · rename_i hr; exact hi.drop_null hr
  · rename_i r hr
    split
    · rename_i hc; exact hi.drop_last hr hc
    · rename_i hc; exact hi.drop_shared hr (by omega)

/-- A further owner of a count. -/
theorem Inv.add_shared {h : Heap V} {p : P} {ps : List P} (hi : Inv h ps) (hp : p ∈ ps) {r : Nat} (hr : p.rc = some r) :
    Inv ⟨h.objs, h.rcs.set r (some (cnt ps r + 1 : Int))⟩ (⟨p.ptr, some r⟩ :: ps) := by
  have hrc := hi.rcOk p hp r hr
  have hlt : r < h.rcs.length := (List.getElem?_eq_some_iff.1 hrc).1
  have hpe : (⟨p.ptr, some r⟩ : P) = p := by cases p; simp_all
  rw [hpe]
  have hm : ∀ q, q ∈ p :: ps ↔ q ∈ ps := by
    intro q; rw [List.mem_cons]; constructor
    · rintro (rfl | h); exacts [hp, h]
    · exact Or.inr
  constructor
  · intro a ha s hs
    rw [hm] at ha
    simp only [set_get, cnt_cons, hr]
    by_cases e : r = s
    · subst e; simp [hlt]
    · rw [if_neg e, if_neg (by simpa using e)]
      exact hi.rcOk a ha s hs
  · intro s n h1
    simp only [set_get] at h1
    by_cases e : r = s
    · subst e; exact ⟨p, by simp, hr⟩
    · rw [if_neg e] at h1
      obtain ⟨a, h2, h3⟩ := hi.rcFree s n h1
      exact ⟨a, by simp [h2], h3⟩
  · intro a h1 b h2; exact hi.same1 a ((hm a).1 h1) b ((hm b).1 h2)
  · intro a h1 b h2; exact hi.same2 a ((hm a).1 h1) b ((hm b).1 h2)
  · intro a h1; exact hi.null a ((hm a).1 h1)
  · intro a h1; exact hi.live a ((hm a).1 h1)
  · intro o v h1
    obtain ⟨a, h2, h3⟩ := hi.owned o v h1
    exact ⟨a, by simp [h2], h3⟩

/-- A new object, not yet owned, and a count for it. -/
theorem Inv.add_at {h : Heap V} {ps : List P} (hi : Inv h ps) (src : Option V) {rcs : List (Option Int)} {r : Nat}
    (hr1 : rcs[r]? = some (some 1)) (hr2 : ∀ s, s ≠ r → rcs[s]? = h.rcs[s]?) (hno : ∀ q ∈ ps, q.rc ≠ some r) :
    Inv ⟨h.objs ++ (src.map some).toList, rcs⟩
      (⟨src.map fun _ => h.objs.length, some r⟩ :: ps) := by
  have hnp : ∀ q ∈ ps, q.ptr ≠ some h.objs.length := by
    intro q hq e
    obtain ⟨v, hv⟩ := hi.live q hq _ e
    simp at hv
  constructor
  · intro a ha s hs
    simp only [cnt_cons]
    rcases List.mem_cons.1 ha with rfl | ha'
    · simp only [Option.some.injEq] at hs
      subst hs
      rw [if_pos rfl, cnt_zero.2 hno]
      simpa using hr1
    · have := hi.rcOk a ha' s hs
      have hne : s ≠ r := by rintro rfl; exact hno a ha' hs
      rw [hr2 s hne, this, if_neg (by simpa using fun e => hne e.symm)]
      rfl
  · intro s n h1
    simp only [] at h1
    by_cases e : s = r
    · exact ⟨_, List.mem_cons_self, by rw [e]⟩
    · rw [hr2 s e] at h1
      obtain ⟨a, h2, h3⟩ := hi.rcFree s n h1
      exact ⟨a, by simp [h2], h3⟩
  · intro a h1 b h2 s ha hb
    rcases List.mem_cons.1 h1 with rfl | h1
    · rcases List.mem_cons.1 h2 with rfl | h2
      · rfl
      · simp only [Option.some.injEq] at ha; subst ha; exact absurd hb (hno b h2)
    · rcases List.mem_cons.1 h2 with rfl | h2
      · simp only [Option.some.injEq] at hb; subst hb; exact absurd ha (hno a h1)
      · exact hi.same1 a h1 b h2 s ha hb
  · intro a h0 b h2 o ha hb
    rcases List.mem_cons.1 h0 with rfl | h1
    · rcases List.mem_cons.1 h2 with rfl | h3
      · rfl
      · cases src with
        | none => simp at ha
        | some v => simp only [Option.map_some, Option.some.injEq] at ha; subst ha; exact absurd hb (hnp b h3)
    · rcases List.mem_cons.1 h2 with rfl | h3
      · cases src with
        | none => simp at hb
        | some v => simp only [Option.map_some, Option.some.injEq] at hb; subst hb; exact absurd ha (hnp a h1)
      · exact hi.same2 a h1 b h3 o ha hb
  · intro a h1 ha
    rcases List.mem_cons.1 h1 with rfl | h1
    · simp at ha
    · exact hi.null a h1 ha
  · intro a h1 o ho
    rcases List.mem_cons.1 h1 with rfl | h1
    · cases src with
      | none => simp at ho
      | some v =>
        simp only [Option.map_some, Option.some.injEq] at ho
        subst ho
        exact ⟨v, by simp⟩
    · obtain ⟨v, hv⟩ := hi.live a h1 o ho
      refine ⟨v, ?_⟩
      rw [List.getElem?_append_left (List.getElem?_eq_some_iff.1 hv).1]; exact hv
  · intro o v h1
    simp only [] at h1
    rcases Nat.lt_or_ge o h.objs.length with hlt | hge
    · rw [List.getElem?_append_left hlt] at h1
      obtain ⟨a, h2, h3⟩ := hi.owned o v h1
      exact ⟨a, by simp [h2], h3⟩
    · rw [List.getElem?_append_right hge] at h1
      cases src with
      | none => simp at h1
      | some w =>
        rcases Nat.eq_or_lt_of_le hge with e | e
        · exact ⟨_, List.mem_cons_self, by rw [e]; rfl⟩
        · rw [List.getElem?_eq_none (by simp; omega)] at h1; simp at h1

theorem Inv.add_new {h : Heap V} {ps : List P} (hi : Inv h ps) (src : Option V) :
    Inv ⟨h.objs ++ (src.map some).toList, h.rcs ++ [some 1]⟩
      (⟨src.map fun _ => h.objs.length, some h.rcs.length⟩ :: ps) := by
  refine hi.add_at src (by simp) ?_ ?_
  · intro s hs
    rcases Nat.lt_or_ge s h.rcs.length with hlt | hge
    · rw [List.getElem?_append_left hlt]
    · rw [List.getElem?_eq_none (by simp; omega), List.getElem?_eq_none (by omega)]
  · intro q hq e
    have := hi.rcOk q hq _ e
    simp at this

/-- An object that was created and deleted again. -/
theorem Inv.add_dead {h : Heap V} {ps : List P} (hi : Inv h ps) (src : Option V) :
    Inv ⟨h.objs ++ (src.map fun _ => none).toList, h.rcs⟩ ps := by
  refine ⟨hi.rcOk, hi.rcFree, hi.same1, hi.same2, hi.null, ?_, ?_⟩
  · intro p hp q hq
    obtain ⟨v, hv⟩ := hi.live p hp q hq
    exact ⟨v, by rw [List.getElem?_append_left (List.getElem?_eq_some_iff.1 hv).1]; exact hv⟩
  · intro q u h1
    simp only [] at h1
    rcases Nat.lt_or_ge q h.objs.length with hlt | hge
    · rw [List.getElem?_append_left hlt] at h1; exact hi.owned q u h1
    · rw [List.getElem?_append_right hge] at h1
      cases src with
      | none => simp at h1
      | some w =>
        simp only [Option.map_some, Option.toList_some] at h1
        rcases Nat.eq_or_lt_of_le hge with e | e
        · simp [e] at h1
        · rw [List.getElem?_eq_none (by simp; omega)] at h1; simp at h1

/-- Writing to an object. -/
theorem Inv.write {h : Heap V} {ps : List P} (hi : Inv h ps) {o : Nat} {w v : V} (ho : h.objs[o]? = some (some w)) :
    Inv ⟨h.objs.set o (some v), h.rcs⟩ ps := by
  have hlt := (List.getElem?_eq_some_iff.1 ho).1
  refine ⟨hi.rcOk, hi.rcFree, hi.same1, hi.same2, hi.null, ?_, ?_⟩
  · intro p hp q hq
    simp only [set_get]
    by_cases e : o = q
    · rw [if_pos e, if_pos hlt]; exact ⟨v, rfl⟩
    · rw [if_neg e]; exact hi.live p hp q hq
  · intro q u h1
    simp only [set_get] at h1
    by_cases e : o = q
    · subst e; exact hi.owned o w ho
    · rw [if_neg e] at h1; exact hi.owned q u h1

theorem newObj_eq (h : Heap V) (src : Option V) :
    h.newObj src = (⟨h.objs ++ (src.map some).toList, h.rcs⟩, src.map fun _ => h.objs.length) := by
  cases src <;> simp [Heap.newObj]

theorem readRc_ok {h : Heap V} {r : Nat} {n : Int} (e : h.rcs[r]? = some (some n)) : h.readRc r = .ok n := by
  simp [Heap.readRc, e]

theorem writeRc_ok {h : Heap V} {r : Nat} {n m : Int} (e : h.rcs[r]? = some (some n)) :
    h.writeRc r m = .ok ⟨h.objs, h.rcs.set r (some m)⟩ := by
  simp [Heap.writeRc, e]

theorem deleteRc_ok {h : Heap V} {r : Nat} {n : Int} (e : h.rcs[r]? = some (some n)) :
    h.deleteRc r = .ok ⟨h.objs, h.rcs.set r none⟩ := by
  simp [Heap.deleteRc, e]

theorem vget_ok' {α : Type} {l : List α} {i : Nat} (h : i < l.length) : vget l i = .ok l[i] := by
  simp [vget, h]

theorem vset_ok' {α : Type} {l : List α} {i : Nat} {a : α} (h : i < l.length) : vset l i a = .ok (l.set i a) := by
  simp [vset, h]

theorem swapP_ok {ps : List P} {i j : Nat} (hi : i < ps.length) (hj : j < ps.length) :
    swapP ps i j = .ok ((ps.set i ps[j]).set j ps[i]) := by
  unfold swapP
  rw [vget_ok' hi, Out.ok_bind, vget_ok' hj, Out.ok_bind, vset_ok' hi, Out.ok_bind, vset_ok' (by simpa using hj)]

/-- `~shared_pointer`. -/
theorem shared_destroy {s : St V} (hi : Inv s.heap s.ps) {i : Nat} (h : i < s.ps.length) :
    Shared.destroy s i = .ok ⟨dropHeap s.heap s.ps[i] (s.ps.eraseIdx i), s.ps.eraseIdx i⟩ := by
  have hp := hi.perm (perm_cons h)
  unfold Shared.destroy dropHeap
  rw [vget_ok' h, Out.ok_bind]
  cases hr : s.ps[i].rc with
  | none => rfl
  | some r =>
    have hrc := hp.rcOk _ (by simp) r hr
    rw [cnt_cons, if_pos hr] at hrc
    have hlt := (List.getElem?_eq_some_iff.1 hrc).1
    simp only []
    rw [readRc_ok hrc, Out.ok_bind, writeRc_ok hrc, Out.ok_bind]
    by_cases hc : cnt (s.ps.eraseIdx i) r = 0
    · rw [if_pos (by rw [hc]; simp), if_pos hc, delete_live (by exact hp.live _ (by simp)), Out.ok_bind]
      rw [deleteRc_ok (n := 0) (by simp [set_get, hlt, hc]), Out.ok_bind]
      simp
    · rw [if_neg (by push_cast; omega), if_neg hc]
      simp

/-- `~cow_pointer` does the same. -/
theorem cow_destroy {s : St V} {i : Nat} (h : i < s.ps.length) (hr : s.ps[i].rc ≠ none) :
    Cow.destroy s i = Shared.destroy s i := by
  unfold Cow.destroy Shared.destroy Cow.rcOf
  rw [vget_ok' h, Out.ok_bind, Out.ok_bind]
  cases h2 : s.ps[i].rc with
  | none => exact absurd h2 hr
  | some r => simp only [Out.ok_bind]

/-- The heap of a copy. -/
def copyHeap (h : Heap V) (ps : List P) (p : P) : Heap V :=
  match p.rc with
  | none => h
  | some r => ⟨h.objs, h.rcs.set r (some (cnt ps r + 1 : Int))⟩

theorem shared_copy {s : St V} (hi : Inv s.heap s.ps) {i : Nat} (h : i < s.ps.length) :
    Shared.copy s i = .ok ⟨copyHeap s.heap s.ps s.ps[i], s.ps ++ [s.ps[i]]⟩ := by
  unfold Shared.copy copyHeap
  rw [vget_ok' h, Out.ok_bind]
  cases hr : s.ps[i].rc with
  | none =>
    simp only []
    have : s.ps[i] = ⟨s.ps[i].ptr, none⟩ := by rw [← hr]
    rw [← this]; rfl
  | some r =>
    have hrc := hi.rcOk _ (List.getElem_mem h) r hr
    simp only []
    rw [readRc_ok hrc, Out.ok_bind, writeRc_ok hrc, Out.ok_bind]
    have : s.ps[i] = ⟨s.ps[i].ptr, some r⟩ := by rw [← hr]
    rw [← this]; rfl

theorem cow_copy {s : St V} {i : Nat} (h : i < s.ps.length) (hr : s.ps[i].rc ≠ none) :
    Cow.copy s i = Shared.copy s i := by
  unfold Cow.copy Shared.copy Cow.rcOf
  rw [vget_ok' h, Out.ok_bind, Out.ok_bind]
  cases h2 : s.ps[i].rc with
  | none => exact absurd h2 hr
  | some r => simp only [Out.ok_bind]

theorem Inv.copy {h : Heap V} {ps : List P} (hi : Inv h ps) {p : P} (hp : p ∈ ps) :
    Inv (copyHeap h ps p) (ps ++ [p]) := by
  refine Inv.perm ?_ (List.perm_append_singleton p ps).symm
  unfold copyHeap
  split
  · rename_i hr
    have : p = ⟨none, none⟩ := by
      have := hi.null p hp hr
      cases p; simp_all
    rw [this]; exact hi.add_null
  · rename_i r hr
    have e : (⟨p.ptr, some r⟩ : P) = p := by rw [← hr]
    have := hi.add_shared hp hr
    rwa [e] at this

theorem eraseIdx_last {α : Type} (l : List α) (a : α) : (l ++ [a]).eraseIdx l.length = l := by
  rw [List.eraseIdx_append_of_length_le (Nat.le_refl _)]; simp

theorem swap_last {ps : List P} {i : Nat} (h : i < ps.length) (a : P) :
    (((ps ++ [a]).set ps.length ((ps ++ [a])[i]'(by simp; omega))).set i ((ps ++ [a])[ps.length]'(by simp)))
      = ps.set i a ++ [ps[i]] := by
  have e1 : (ps ++ [a])[ps.length]'(by simp) = a := by simp
  have e2 : (ps ++ [a])[i]'(by simp; omega) = ps[i] := List.getElem_append_left h
  rw [e1, e2, List.set_append_right _ _ (Nat.le_refl _)]
  simp only [Nat.sub_self, List.set_cons_zero]
  rw [List.set_append_left _ _ h]

/-- `operator=`. -/
theorem shared_assign {s : St V} (hi : Inv s.heap s.ps) {i j : Nat} (h : i < s.ps.length) (hj : j < s.ps.length) :
    Shared.assign s i j = .ok ⟨dropHeap (copyHeap s.heap s.ps s.ps[j]) s.ps[i] (s.ps.set i s.ps[j]), s.ps.set i s.ps[j]⟩ ∧
    Inv (dropHeap (copyHeap s.heap s.ps s.ps[j]) s.ps[i] (s.ps.set i s.ps[j])) (s.ps.set i s.ps[j]) := by
  have h1 := hi.copy (List.getElem_mem hj)
  have h2 : Inv (copyHeap s.heap s.ps s.ps[j]) (s.ps.set i s.ps[j] ++ [s.ps[i]]) := by
    refine h1.perm ?_
    rw [← swap_last h]
    exact (List.set_set_perm (as := s.ps ++ [s.ps[j]]) (by simp) (by simp; omega)).symm
  constructor
  · unfold Shared.assign
    rw [vget_ok' h, Out.ok_bind, shared_copy hi hj, Out.ok_bind]
    simp only []
    rw [swapP_ok (by simp) (by simp; omega), Out.ok_bind, swap_last h]
    have hl : (s.ps.set i s.ps[j]).length = s.ps.length := by simp
    have := shared_destroy (s := ⟨copyHeap s.heap s.ps s.ps[j], s.ps.set i s.ps[j] ++ [s.ps[i]]⟩) h2
      (i := s.ps.length) (by simp)
    rw [this]
    have e := eraseIdx_last (s.ps.set i s.ps[j]) s.ps[i]
    rw [hl] at e
    have e2 : (s.ps.set i s.ps[j] ++ [s.ps[i]])[s.ps.length]'(by simp) = s.ps[i] := by
      rw [List.getElem_append_right (by simp)]; simp
    simp only [e, e2]
  · have h3 := h2.perm (List.perm_append_singleton _ _)
    exact h3.drop

/-- The new object is deleted again. -/
theorem delete_fresh (h : Heap V) (rcs : List (Option Int)) (src : Option V) :
    Heap.delete ⟨h.objs ++ (src.map some).toList, rcs⟩ (src.map fun _ => h.objs.length) =
      .ok ⟨h.objs ++ (src.map fun _ => none).toList, rcs⟩ := by
  cases src with
  | none => rfl
  | some v =>
    simp only [Option.map_some, Heap.delete, Option.toList_some]
    simp [List.set_append_right]

theorem setNone_append {objs l : List (Option V)} {p : Option Nat} (h : ∀ o, p = some o → o < objs.length) :
    setNone (objs ++ l) p = setNone objs p ++ l := by
  cases p with
  | none => rfl
  | some o => simp only [setNone]; rw [List.set_append_left _ _ (h o rfl)]

theorem cons_set {ps : List P} {i : Nat} (h : i < ps.length) (a : P) : (a :: ps.eraseIdx i).Perm (ps.set i a) :=
  (List.set_perm_cons_eraseIdx h a).symm

/-- `shared_pointer::reset` to a null or fresh pointer. -/
theorem shared_reset {s : St V} (hi : Inv s.heap s.ps) {i : Nat} (h : i < s.ps.length) (src : Option V) (oom : Bool)
    (hok : oom = true → s.ps[i].rc ≠ none) :
    ∃ h' ps' b, Shared.step s (.reset i src oom) = .ok (⟨h', ps'⟩, b) ∧ (b = true → oom = true) ∧ Inv h' ps' ∧
      h'.objs.length = s.heap.objs.length + src.toList.length ∧
      (∀ (o : Nat) (v : V), h'.objs[o]? = some (some v) → (s.heap.objs ++ (src.map some).toList)[o]? = some (some v)) ∧
      (b = true → ps' = s.ps) ∧
      (b = false → (src = none ∧ s.ps[i].ptr = none ∧ ps' = s.ps) ∨
        ((s.ps[i].ptr ≠ none ∨ src ≠ none) ∧ ∃ r, ps' = s.ps.set i ⟨src.map fun _ => s.heap.objs.length, some r⟩)) := by
  have hp := hi.perm (perm_cons h)
  have hlt : ∀ o, s.ps[i].ptr = some o → o < s.heap.objs.length := by
    intro o ho
    obtain ⟨v, hv⟩ := hp.live _ (by simp) o ho
    exact (List.getElem?_eq_some_iff.1 hv).1
  simp only [Shared.step, newObj_eq]
  unfold Shared.resetPtr
  rw [vget_ok' h, Out.ok_bind]
  by_cases hsame : s.ps[i].ptr = src.map fun _ => s.heap.objs.length
  · rw [if_pos hsame]
    have hsn : src = none := by
      cases src with
      | none => rfl
      | some v => exact absurd (hlt s.heap.objs.length hsame) (by omega)
    subst hsn
    refine ⟨_, _, _, rfl, by simp, by simpa using hi, by simp, by simp, by simp, fun _ => Or.inl ⟨rfl, hsame, rfl⟩⟩
  · rw [if_neg hsame]
    have hor : s.ps[i].ptr ≠ none ∨ src ≠ none := by
      cases src with
      | none => left; simpa using hsame
      | some v => right; simp
    cases hr : s.ps[i].rc with
    | none =>
      simp only []
      have hoom : oom = false := by
        cases oom with
        | false => rfl
        | true => exact absurd hr (hok rfl)
      subst hoom
      unfold Shared.resetNew Shared.resetEnd
      simp only [Bool.false_eq_true, if_false, Heap.newRc]
      rw [writeRc_ok (n := 0) (by simp), Out.ok_bind, vset_ok' h, Out.ok_bind]
      refine ⟨_, _, _, rfl, by simp, ?_, ?_, ?_, by simp, fun _ => Or.inr ⟨hor, _, rfl⟩⟩
      · have := (hp.drop_null hr).add_new src
        simp only [List.set_append_right _ _ (Nat.le_refl _), Nat.sub_self, List.set_cons_zero]
        exact this.perm (cons_set h _)
      · cases src <;> simp
      · exact fun _ _ h => h
    | some r =>
      have hrc := hp.rcOk _ (by simp) r hr
      rw [cnt_cons, if_pos hr] at hrc
      have hrl := (List.getElem?_eq_some_iff.1 hrc).1
      simp only []
      rw [readRc_ok (by exact hrc), Out.ok_bind, writeRc_ok (by exact hrc), Out.ok_bind]
      by_cases hc : cnt (s.ps.eraseIdx i) r = 0
      · rw [if_pos (by rw [hc]; simp), delete_live (by
            intro o ho
            obtain ⟨v, hv⟩ := hp.live _ (by simp) o ho
            exact ⟨v, by simp only []; rw [List.getElem?_append_left (hlt o ho)]; exact hv⟩), Out.ok_bind]
        unfold Shared.resetEnd
        rw [writeRc_ok (n := 0) (by simp [set_get, hrl, hc]), Out.ok_bind, vset_ok' h, Out.ok_bind]
        refine ⟨_, _, _, rfl, by simp, ?_, ?_, ?_, by simp, fun _ => Or.inr ⟨hor, _, rfl⟩⟩
        · have h1 := hp.drop_last hr hc
          have h2 := h1.add_at src (rcs := s.heap.rcs.set r (some 1)) (r := r) (by simp [set_get, hrl]) (by
            intro t ht
            have ht : r ≠ t := fun e => ht e.symm
            simp [set_get, ht]) (cnt_zero.1 hc)
          simp only [setNone_append hlt]
          simp only [List.set_set, setNone_length] at h2 ⊢
          exact h2.perm (cons_set h _)
        · cases src <;> simp
        · exact fun o v hv => (setNone_get hv).1
      · rw [if_neg (by push_cast; omega)]
        unfold Shared.resetNew Shared.resetEnd
        have e1 : ((cnt (s.ps.eraseIdx i) r + 1 : Nat) : Int) - 1 = (cnt (s.ps.eraseIdx i) r : Int) := by push_cast; omega
        rw [e1]
        cases oom with
        | true =>
          simp only [if_true]
          rw [readRc_ok (n := (cnt (s.ps.eraseIdx i) r : Int)) (by simp [set_get, hrl]), Out.ok_bind,
            writeRc_ok (n := (cnt (s.ps.eraseIdx i) r : Int)) (by simp [set_get, hrl]), Out.ok_bind, delete_fresh, Out.ok_bind]
          refine ⟨_, _, _, rfl, by simp, ?_, ?_, ?_, by simp, by simp⟩
          · have : (s.heap.rcs.set r (some (cnt (s.ps.eraseIdx i) r : Int))).set r (some ((cnt (s.ps.eraseIdx i) r : Int) + 1))
                = s.heap.rcs := by
              rw [List.set_set]
              apply List.ext_getElem? 
              intro t
              rw [set_get]
              by_cases e : r = t
              · subst e; rw [if_pos rfl, if_pos hrl, hrc]; push_cast; rfl
              · rw [if_neg e]
            simp only [this]
            exact hi.add_dead src
          · cases src <;> simp
          · intro o v hv
            cases src with
            | none => simpa using hv
            | some w =>
              simp only [Option.map_some, Option.toList_some] at hv ⊢
              rcases Nat.lt_or_ge o s.heap.objs.length with hl | hg
              · rw [List.getElem?_append_left hl] at hv ⊢; exact hv
              · rw [List.getElem?_append_right hg] at hv
                rcases Nat.eq_or_lt_of_le hg with e | e
                · simp [e] at hv
                · rw [List.getElem?_eq_none (by simp; omega)] at hv; simp at hv
        | false =>
          simp only [Bool.false_eq_true, if_false, Heap.newRc]
          rw [writeRc_ok (n := 0) (by simp), Out.ok_bind, vset_ok' h, Out.ok_bind]
          refine ⟨_, _, _, rfl, by simp, ?_, ?_, ?_, by simp, fun _ => Or.inr ⟨hor, _, rfl⟩⟩
          · have := (hp.drop_shared hr (by omega)).add_new src
            simp only [List.length_set] at this ⊢
            have e : (s.heap.rcs.set r (some (cnt (s.ps.eraseIdx i) r : Int)) ++ [some (0 : Int)]).set s.heap.rcs.length (some 1)
                = s.heap.rcs.set r (some (cnt (s.ps.eraseIdx i) r : Int)) ++ [some 1] := by
              rw [List.set_append_right _ _ (by simp)]; simp
            rw [e]
            exact this.perm (cons_set h _)
          · cases src <;> simp
          · exact fun _ _ h => h

/-- `cow_pointer::reset` does the same as `shared_pointer::reset`. -/
theorem cow_reset {h : Heap V} {ps : List P} {i : Nat} (hi : i < ps.length) (hr : ps[i].rc ≠ none) (src : Option Nat) (oom : Bool) :
    Cow.resetPtr h ps i src oom = Shared.resetPtr h ps i src oom := by
  unfold Cow.resetPtr Shared.resetPtr Cow.rcOf Shared.resetNew Shared.resetEnd
  rw [vget_ok' hi, Out.ok_bind, Out.ok_bind]
  cases h2 : ps[i].rc with
  | none => exact absurd h2 hr
  | some r => simp only [Out.ok_bind]

end Ptr
end Ringing
