import Verif.Lemmas.MethodUtils4
import Verif.Lemmas.MethodUtils2
import Verif.Lemmas.Method

namespace Ringing
open Spec Row MethodUtils

/-- A list of places in order that are those of a well-formed change makes that change. -/
theorem ofString_of_mem {d : Change} (hd : d.WF) (h0 : d.n ≠ 0) {ps : List Nat} (hs : ps.Pairwise (· < ·))
    (hm : ∀ i, i ∈ ps ↔ IsPlace d.n d.swaps i) :
    Change.ofStringC d.n (if ps.flatMap Bell.write = [] then ['x'] else ps.flatMap Bell.write) = .ok d := by
  have e : ps = d.places := by
    refine List.Perm.eq_of_pairwise (le := (· < ·)) (fun x y _ _ h1 h2 => by omega) hs
      (Change.WF.sorted_places hd) ?_
    rw [List.perm_ext_iff_of_nodup (hs.imp (fun h => by omega)) ((Change.WF.sorted_places hd).imp (fun h => by omega))]
    intro i
    rw [hm, Change.WF.mem_places hd]; rfl
  have := Change.WF.ofStringC_print hd .lower
  rw [e]
  unfold Change.print at this
  simp only at this
  by_cases hn : d.places.flatMap Bell.write = []
  · rw [if_pos hn]
    rw [if_pos (by simp [h0, hn])] at this
    exact this
  · rw [if_neg hn]
    rw [if_neg (by simp [List.isEmpty_iff, hn])] at this
    exact this

/-- The change of the overwork. -/
def overChange (c : Change) (lo : Nat) : Change :=
  ⟨c.n, Change.swapsBetween 256 (lo % 2) lo ++ c.swaps.filter (fun s => decide (lo ≤ s))⟩

/-- The change of the underwork. -/
def underChange (c : Change) (hi : Nat) : Change :=
  ⟨c.n, c.swaps.filter (fun s => decide (s + 1 ≤ hi)) ++ Change.swapsBetween 256 (hi + 1) c.n⟩

theorem mem_overChange {c : Change} (hc : c.WF) {lo : Nat} (hlo : lo < c.n) (s : Nat) :
    s ∈ (overChange c lo).swaps ↔ (lo ≤ s ∧ s ∈ c.swaps) ∨ (s + 2 ≤ lo ∧ s % 2 = lo % 2) := by
  have := hc.1
  unfold overChange
  rw [List.mem_append, Change.mem_swapsBetween (by omega), List.mem_filter]
  simp only [decide_eq_true_eq]
  constructor
  · rintro (⟨h1, h2, h3⟩ | ⟨h1, h2⟩)
    · right; omega
    · exact Or.inl ⟨h2, h1⟩
  · rintro (⟨h1, h2⟩ | ⟨h1, h2⟩)
    · exact Or.inr ⟨h2, h1⟩
    · left; omega

theorem mem_underChange {c : Change} (hc : c.WF) {hi : Nat} (_hhi : hi < c.n) (s : Nat) :
    s ∈ (underChange c hi).swaps ↔ (s + 1 ≤ hi ∧ s ∈ c.swaps) ∨
      (hi < s ∧ s + 2 ≤ c.n ∧ s % 2 = (hi + 1) % 2) := by
  have := hc.1
  unfold underChange
  rw [List.mem_append, Change.mem_swapsBetween (by omega), List.mem_filter]
  simp only [decide_eq_true_eq]
  constructor
  · rintro (⟨h1, h2⟩ | ⟨h1, h2, h3⟩)
    · exact Or.inl ⟨h2, h1⟩
    · right; omega
  · rintro (⟨h1, h2⟩ | ⟨h1, h2, h3⟩)
    · exact Or.inl ⟨h2, h1⟩
    · right; omega

theorem overChange_wf {c : Change} (hc : c.WF) {lo : Nat} (hlo : lo < c.n) : (overChange c lo).WF := by
  refine ⟨hc.1, ?_, ?_⟩
  · unfold overChange
    obtain ⟨g1, g2⟩ := Change.gap_swapsBetween 256 (lo % 2) lo
    refine List.pairwise_append.2 ⟨g1, hc.2.1.filter _, ?_⟩
    intro a ha b hb
    have := (g2 a ha).2
    have := List.mem_filter.1 hb
    simp only [decide_eq_true_eq] at this
    omega
  · intro s hs
    have h := (mem_overChange hc hlo s).1 hs
    show s + 2 ≤ c.n
    rcases h with ⟨-, h⟩ | ⟨h, -⟩
    · exact hc.2.2 s h
    · omega

theorem underChange_wf {c : Change} (hc : c.WF) {hi : Nat} (hhi : hi < c.n) : (underChange c hi).WF := by
  refine ⟨hc.1, ?_, ?_⟩
  · unfold underChange
    obtain ⟨g1, g2⟩ := Change.gap_swapsBetween 256 (hi + 1) c.n
    refine List.pairwise_append.2 ⟨hc.2.1.filter _, g1, ?_⟩
    intro a ha b hb
    have := (g2 b hb).1
    have := List.mem_filter.1 ha
    simp only [decide_eq_true_eq] at this
    omega
  · intro s hs
    have h := (mem_underChange hc hhi s).1 hs
    show s + 2 ≤ c.n
    rcases h with ⟨-, h⟩ | ⟨-, h, -⟩
    · exact hc.2.2 s h
    · exact h

theorem moveTo_fixed {ss : List Nat} (i : Nat) :
    moveTo ss i = i ↔ i ∉ ss ∧ ∀ s ∈ ss, s + 1 ≠ i := by
  unfold moveTo
  split
  · rename_i h
    constructor
    · intro e; omega
    · intro e; exact absurd h e.1
  · split
    · rename_i h1 h2
      constructor
      · intro e; omega
      · rintro ⟨-, e⟩; exact absurd (by omega) (e _ h2.2)
    · rename_i h1 h2
      refine ⟨fun _ => ⟨h1, ?_⟩, fun _ => rfl⟩
      intro s hs e
      exact h2 ⟨by omega, by rwa [show i - 1 = s by omega]⟩

/-- No pair of the change crosses the path of the treble. -/
theorem no_cross {c : Change} (hc : c.WF) {a b : Nat} (hb : b = moveTo c.swaps a) {s : Nat} (hs : s ∈ c.swaps) :
    (s < min a b → s + 1 < min a b) ∧ (s ≤ max a b → s + 1 ≤ max a b) := by
  have hg := hc.gap
  have h1 := Change.moveTo_mem hs
  have h2 := Change.moveTo_mem_succ hg hs
  constructor
  · intro h
    by_contra hn
    have : s + 1 = min a b := by omega
    rcases Nat.le_total a b with hab | hab
    · rw [Nat.min_eq_left hab] at this
      rw [← this, h2] at hb; omega
    · rw [Nat.min_eq_right hab] at this
      have : b = s + 1 := this.symm
      have ha : a = moveTo c.swaps b := by rw [hb, Change.moveTo_moveTo hg]
      rw [this, h2] at ha; omega
  · intro h
    by_contra hn
    have : s = max a b := by omega
    rcases Nat.le_total a b with hab | hab
    · rw [Nat.max_eq_right hab] at this
      have ha : a = moveTo c.swaps b := by rw [hb, Change.moveTo_moveTo hg]
      rw [← this, h1] at ha; omega
    · rw [Nat.max_eq_left hab] at this
      rw [← this, h1] at hb; omega

theorem place_overChange {c : Change} (hc : c.WF) {a b : Nat} (ha : a < c.n) (hb : b = moveTo c.swaps a) (i : Nat) :
    IsPlace c.n (overChange c (min a b)).swaps i ↔
      (i = 0 ∧ min a b % 2 = 1) ∨ (min a b ≤ i ∧ IsPlace c.n c.swaps i) := by
  have hlo : min a b < c.n := by omega
  have cross := fun {s} hs => (no_cross hc hb (s := s) hs).1
  unfold IsPlace
  rw [moveTo_fixed, moveTo_fixed, mem_overChange hc hlo]
  simp only [mem_overChange hc hlo]
  generalize min a b = lo at *
  constructor
  · rintro ⟨h1, h2, h3⟩
    by_cases hl : lo ≤ i
    · refine Or.inr ⟨hl, h1, fun h => h2 (Or.inl ⟨hl, h⟩), fun s hs e => ?_⟩
      refine h3 s (Or.inl ⟨?_, hs⟩) e
      by_contra hn
      have := cross hs (by omega); omega
    · left
      rcases Nat.eq_zero_or_pos i with rfl | hi
      · refine ⟨rfl, ?_⟩
        by_contra hn
        exact h2 (Or.inr (by omega))
      · exfalso
        by_cases hp : i % 2 = lo % 2
        · exact h2 (Or.inr (by omega))
        · exact h3 (i - 1) (Or.inr (by omega)) (by omega)
  · rintro (⟨rfl, h⟩ | ⟨h1, h2, h3, h4⟩)
    · refine ⟨by omega, ?_, ?_⟩
      · rintro (⟨h1, -⟩ | ⟨h1, h2⟩) <;> omega
      · intro s _; omega
    · refine ⟨h2, ?_, ?_⟩
      · rintro (⟨-, h⟩ | ⟨h, -⟩)
        · exact h3 h
        · omega
      · rintro s (⟨-, h⟩ | ⟨h, -⟩)
        · exact h4 s h
        · omega

theorem place_underChange {c : Change} (hc : c.WF) {a b : Nat} (ha : a < c.n) (hbn : b < c.n)
    (hb : b = moveTo c.swaps a) (i : Nat) :
    IsPlace c.n (underChange c (max a b)).swaps i ↔
      (i ≤ max a b ∧ IsPlace c.n c.swaps i) ∨ (i + 1 = c.n ∧ max a b % 2 = c.n % 2) := by
  have hhi : max a b < c.n := by omega
  have cross := fun {s} hs => (no_cross hc hb (s := s) hs).2
  unfold IsPlace
  rw [moveTo_fixed, moveTo_fixed, mem_underChange hc hhi]
  simp only [mem_underChange hc hhi]
  generalize max a b = hi at *
  constructor
  · rintro ⟨h1, h2, h3⟩
    by_cases hl : i ≤ hi
    · refine Or.inl ⟨hl, h1, fun h => h2 (Or.inl ⟨cross h hl, h⟩), fun s hs e => ?_⟩
      exact h3 s (Or.inl ⟨by omega, hs⟩) e
    · right
      by_cases hn : i + 1 = c.n
      · refine ⟨hn, ?_⟩
        by_contra hp
        exact h3 (i - 1) (Or.inr (by omega)) (by omega)
      · exfalso
        by_cases hp : i % 2 = (hi + 1) % 2
        · exact h2 (Or.inr (by omega))
        · exact h3 (i - 1) (Or.inr (by omega)) (by omega)
  · rintro (⟨h1, h2, h3, h4⟩ | ⟨h1, h2⟩)
    · refine ⟨h2, ?_, ?_⟩
      · rintro (⟨-, h⟩ | ⟨h, -⟩)
        · exact h3 h
        · omega
      · rintro s (⟨-, h⟩ | ⟨h, -⟩)
        · exact h4 s h
        · omega
    · refine ⟨by omega, ?_, ?_⟩
      · rintro (⟨h, -⟩ | ⟨h, h', h''⟩) <;> omega
      · rintro s (⟨h, h'⟩ | ⟨h, h', h''⟩)
        · omega
        · omega

theorem overString_ok {c : Change} (hc : c.WF) {a b : Nat} (ha : a < c.n) (hb : b = moveTo c.swaps a) :
    Change.ofStringC c.n (overString c.n c a b) = .ok (overChange c (min a b)) := by
  have hlo : min a b < c.n := by omega
  have hw := overChange_wf hc hlo
  set F := (List.range c.n).filter fun x => c.findplace x && decide (x ≥ a ∨ x ≥ b) with hF
  have memF : ∀ i, i ∈ F ↔ min a b ≤ i ∧ IsPlace c.n c.swaps i := by
    intro i
    rw [hF, List.mem_filter, List.mem_range, Bool.and_eq_true, hc.findplace_eq, decide_eq_true_eq]
    unfold IsPlace
    constructor
    · rintro ⟨h1, h2, h3⟩; exact ⟨by omega, h1, h2⟩
    · rintro ⟨h1, h2, h3⟩; exact ⟨h2, h3, by omega⟩
  have sF : F.Pairwise (· < ·) := List.pairwise_lt_range.filter _
  have pw := place_overChange hc ha hb
  by_cases ho : min a b % 2 = 1
  · have key := ofString_of_mem hw (show c.n ≠ 0 by omega) (ps := 0 :: F) (List.pairwise_cons.2
      ⟨fun x hx => by have := ((memF x).1 hx).1; omega, sF⟩) (by
        intro i
        rw [List.mem_cons, memF]
        refine Iff.trans ?_ (pw i).symm
        constructor
        · rintro (h | h)
          · exact Or.inl ⟨h, ho⟩
          · exact Or.inr h
        · rintro (h | h)
          · exact Or.inl h.1
          · exact Or.inr h)
    unfold overString
    simp only
    rw [if_pos (show (a % 2 ≠ 0 ∧ b ≥ a) ∨ (b % 2 ≠ 0 ∧ a ≥ b) by omega), ← hF]
    rw [List.flatMap_cons] at key
    exact key
  · have key := ofString_of_mem hw (show c.n ≠ 0 by omega) (ps := F) sF (by
        intro i
        rw [memF]
        refine Iff.trans ?_ (pw i).symm
        constructor
        · exact Or.inr
        · rintro (h | h)
          · exact absurd h.2 ho
          · exact h)
    unfold overString
    simp only
    rw [if_neg (show ¬ ((a % 2 ≠ 0 ∧ b ≥ a) ∨ (b % 2 ≠ 0 ∧ a ≥ b)) by omega), ← hF, List.nil_append]
    exact key

theorem underString_ok {c : Change} (hc : c.WF) {a b : Nat} (ha : a < c.n) (hbn : b < c.n)
    (hb : b = moveTo c.swaps a) :
    Change.ofStringC c.n (underString c.n c a b) = .ok (underChange c (max a b)) := by
  have hhi : max a b < c.n := by omega
  have hw := underChange_wf hc hhi
  set F := (List.range c.n).filter fun x => c.findplace x && decide (x ≤ a ∨ x ≤ b) with hF
  have memF : ∀ i, i ∈ F ↔ i ≤ max a b ∧ IsPlace c.n c.swaps i := by
    intro i
    rw [hF, List.mem_filter, List.mem_range, Bool.and_eq_true, hc.findplace_eq, decide_eq_true_eq]
    unfold IsPlace
    constructor
    · rintro ⟨h1, h2, h3⟩; exact ⟨by omega, h1, h2⟩
    · rintro ⟨h1, h2, h3⟩; exact ⟨h2, h3, by omega⟩
  have sF : F.Pairwise (· < ·) := List.pairwise_lt_range.filter _
  have pw := place_underChange hc ha hbn hb
  by_cases ho : max a b % 2 = c.n % 2
  · have key := ofString_of_mem hw (show c.n ≠ 0 by omega) (ps := F ++ [c.n - 1]) (List.pairwise_append.2
      ⟨sF, by simp, fun x hx y hy => by
        have := ((memF x).1 hx).1
        rw [List.mem_singleton] at hy; omega⟩) (by
        intro i
        rw [List.mem_append, List.mem_singleton, memF]
        refine Iff.trans ?_ (pw i).symm
        constructor
        · rintro (h | h)
          · exact Or.inl h
          · exact Or.inr ⟨by omega, ho⟩
        · rintro (h | h)
          · exact Or.inl h
          · exact Or.inr (by omega))
    unfold underString
    simp only
    rw [if_pos (show (a % 2 = c.n % 2 ∧ b ≤ a) ∨ (b % 2 = c.n % 2 ∧ a ≤ b) by
      rcases Nat.le_total a b with h | h
      · rw [Nat.max_eq_right h] at ho; exact Or.inr ⟨ho, h⟩
      · rw [Nat.max_eq_left h] at ho; exact Or.inl ⟨ho, h⟩), ← hF, if_neg (show c.n ≠ 0 by omega)]
    rw [List.flatMap_append, List.flatMap_cons, List.flatMap_nil, List.append_nil] at key
    exact key
  · have key := ofString_of_mem hw (show c.n ≠ 0 by omega) (ps := F) sF (by
        intro i
        rw [memF]
        refine Iff.trans ?_ (pw i).symm
        constructor
        · exact Or.inl
        · rintro (h | h)
          · exact h
          · exact absurd h.2 ho)
    unfold underString
    simp only
    rw [if_neg (show ¬ ((a % 2 = c.n % 2 ∧ b ≤ a) ∨ (b % 2 = c.n % 2 ∧ a ≤ b)) by
      rintro (⟨h1, h2⟩ | ⟨h1, h2⟩)
      · rw [Nat.max_eq_left h2] at ho; exact ho h1
      · rw [Nat.max_eq_right h2] at ho; exact ho h1), ← hF, List.append_nil]
    exact key

/-- The changes of the overwork, the treble starting in position `a`. -/
def overList : Nat → List Change → List Change
  | _, [] => []
  | a, c :: cs => overChange c (min a (moveTo c.swaps a)) :: overList (moveTo c.swaps a) cs

/-- The changes of the underwork. -/
def underList : Nat → List Change → List Change
  | _, [] => []
  | a, c :: cs => underChange c (max a (moveTo c.swaps a)) :: underList (moveTo c.swaps a) cs

theorem find_treble {b : Nat} (hb : b ≤ 255) {cs : List Change} (h : ∀ c ∈ cs, IsChange c.n c.swaps ∧ c.n = b) :
    Row.find (applyAll (rounds b) cs) 0 = follow (cs.map Change.swaps) 0 := by
  obtain ⟨a1, a2, a3⟩ := applyAll_wf hb h
  have va := (isRow_iff_valid _).1 a1
  rw [va.find_eq_iff, ← bellAt_eq_fn]
  exact (a3 0).symm

theorem follow_lt {b : Nat} (hb : b ≤ 255) {cs : List Change} (h : ∀ c ∈ cs, IsChange c.n c.swaps ∧ c.n = b)
    {p : Nat} (hp : p < b) : follow (cs.map Change.swaps) p < b :=
  Method.WF.follow_lt (m := ⟨b, cs⟩) ⟨hb, h⟩ hp

theorem splitLoop_spec {b : Nat} (hb : b ≤ 255) (h1 : 1 ≤ b) : ∀ {cs pre : List Change} {over under : Method},
    (∀ c ∈ pre, IsChange c.n c.swaps ∧ c.n = b) → (∀ c ∈ cs, IsChange c.n c.swaps ∧ c.n = b) →
    splitLoop b cs (applyAll (rounds b) pre) over under =
      .ok ((overList (follow (pre.map Change.swaps) 0) cs).foldl pushBack over,
        (underList (follow (pre.map Change.swaps) 0) cs).foldl pushBack under) := by
  intro cs
  induction cs with
  | nil => intro pre over under _ _; rfl
  | cons c cs ih =>
    intro pre over under hp hcs
    have hc := hcs c (by simp)
    have hcw : c.WF := hc.1
    have hpc : ∀ d ∈ pre ++ [c], IsChange d.n d.swaps ∧ d.n = b := by
      intro d hd
      rcases List.mem_append.1 hd with h | h
      · exact hp d h
      · rw [List.mem_singleton.1 h]; exact hc
    have e2 : apply (applyAll (rounds b) pre) c = applyAll (rounds b) (pre ++ [c]) := by
      unfold applyAll; rw [List.foldl_append]; rfl
    have hf : follow ((pre ++ [c]).map Change.swaps) 0 = moveTo c.swaps (follow (pre.map Change.swaps) 0) := by
      rw [List.map_append, follow_append]; rfl
    have ha := follow_lt hb hp (p := 0) (by omega)
    have hb2 := follow_lt hb hpc (p := 0) (by omega)
    rw [hf] at hb2
    rw [splitLoop, applyC_eq hcw, Out.ok_bind, e2]
    simp only [find_treble hb hp, find_treble hb hpc, hf]
    have o := overString_ok hcw (a := follow (pre.map Change.swaps) 0) (by rw [hc.2]; exact ha) rfl
    have u := underString_ok hcw (a := follow (pre.map Change.swaps) 0) (by rw [hc.2]; exact ha) (by rw [hc.2]; exact hb2) rfl
    rw [hc.2] at o u
    rw [o, Out.ok_bind, u, Out.ok_bind, ih hpc (fun d hd => hcs d (by simp [hd])), hf]
    rfl

theorem foldl_pushBack {b : Nat} : ∀ {l : List Change} {m : Method}, (∀ c ∈ l, c.n = b) →
    l.foldl pushBack m = ⟨if l = [] then m.b else max m.b b, m.ch ++ l⟩ := by
  intro l
  induction l with
  | nil => intro m _; simp
  | cons c l ih =>
    intro m h
    rw [List.foldl_cons, ih (fun d hd => h d (by simp [hd]))]
    unfold pushBack
    simp only [h c (by simp), List.append_assoc, List.singleton_append, reduceCtorEq, if_false]
    congr 1
    split <;> omega

theorem getElem?_overList : ∀ {cs : List Change} {a k : Nat},
    (overList a cs)[k]? = cs[k]?.map fun c => overChange c
      (min (follow ((cs.map Change.swaps).take k) a) (follow ((cs.map Change.swaps).take (k + 1)) a)) := by
  intro cs
  induction cs with
  | nil => intro a k; simp [overList]
  | cons c cs ih =>
    intro a k
    cases k with
    | zero => simp [overList, follow]
    | succ k =>
      rw [overList, List.getElem?_cons_succ, ih, List.getElem?_cons_succ]
      simp only [List.map_cons, List.take_succ_cons, follow_cons]

theorem getElem?_underList : ∀ {cs : List Change} {a k : Nat},
    (underList a cs)[k]? = cs[k]?.map fun c => underChange c
      (max (follow ((cs.map Change.swaps).take k) a) (follow ((cs.map Change.swaps).take (k + 1)) a)) := by
  intro cs
  induction cs with
  | nil => intro a k; simp [underList]
  | cons c cs ih =>
    intro a k
    cases k with
    | zero => simp [underList, follow]
    | succ k =>
      rw [underList, List.getElem?_cons_succ, ih, List.getElem?_cons_succ]
      simp only [List.map_cons, List.take_succ_cons, follow_cons]

theorem length_overList : ∀ {cs : List Change} {a : Nat}, (overList a cs).length = cs.length := by
  intro cs
  induction cs with
  | nil => intro a; rfl
  | cons c cs ih => intro a; simp [overList, ih]

theorem length_underList : ∀ {cs : List Change} {a : Nat}, (underList a cs).length = cs.length := by
  intro cs
  induction cs with
  | nil => intro a; rfl
  | cons c cs ih => intro a; simp [underList, ih]

theorem n_overList : ∀ {cs : List Change} {a b : Nat}, (∀ c ∈ cs, c.n = b) → ∀ c ∈ overList a cs, c.n = b := by
  intro cs
  induction cs with
  | nil => intro a b _ c hc; cases hc
  | cons c cs ih =>
    intro a b h d hd
    rw [overList] at hd
    rcases List.mem_cons.1 hd with rfl | hd
    · exact h c (by simp)
    · exact ih (fun d hd => h d (by simp [hd])) d hd

theorem n_underList : ∀ {cs : List Change} {a b : Nat}, (∀ c ∈ cs, c.n = b) → ∀ c ∈ underList a cs, c.n = b := by
  intro cs
  induction cs with
  | nil => intro a b _ c hc; cases hc
  | cons c cs ih =>
    intro a b h d hd
    rw [underList] at hd
    rcases List.mem_cons.1 hd with rfl | hd
    · exact h c (by simp)
    · exact ih (fun d hd => h d (by simp [hd])) d hd

end Ringing
