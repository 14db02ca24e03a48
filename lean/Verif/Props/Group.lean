import Verif.Lemmas.Group9

/-!
# C31-C33, C51: groups of rows

`Spec.Lists v b G`: the list `v` is in increasing order and consists of the rows on `b` bells whose
permutations form the subgroup `G` of the permutations of all places (Mathlib's `Subgroup`).
-/
namespace Ringing
open Spec
namespace Group

/-- The group objects a program can make.  (Conjugation by a row with more bells than the group is
excluded, see `C32_conjugate_longer`; the constructor of named groups with the total number of bells
left out is the one with the total given.) -/
inductive Built : Group → Prop
  | default : Built trivial0
  | ofRow {r g} : IsRow r → ofRowC r = .ok g → Built g
  | ofRows {r s g} : IsRow r → IsRow s → ofRowsC r s = .ok g → Built g
  | ofVector {l g} : (∀ r ∈ l, IsRow r) → ofVectorC l = .ok g → Built g
  | symmetric {nw nh nt g} : nh + nw ≤ nt → nt ≤ 256 → 0 < nt → symmetricC nw nh nt = .ok g → Built g
  | alternating {nw nh nt g} : nh + nw ≤ nt → nt ≤ 256 → 0 < nt → alternatingC nw nh nt = .ok g → Built g
  | conjugate {g r g'} : Built g → IsRow r → r.length ≤ g.b → conjugateC g r = .ok g' → Built g'
  | even {g g'} : Built g → evenSubgroupC g = .ok g' → Built g'
  | product {a b g} : Built a → Built b → a.b + b.b ≤ 256 → directProductC a b = .ok g → Built g

theorem ok_inj {α : Type} {x : Out α} {a b : α} (h1 : x = .ok a) (h2 : x = .ok b) : a = b := by
  rw [h1] at h2; injection h2

theorem Built.good {g : Group} (h : Built g) : Good g := by
  induction h with
  | default => exact good_trivial0
  | ofRow hr e =>
    obtain ⟨g, e1, -, -, e4⟩ := ofRow_good ((isRow_iff_valid _).1 hr)
    rw [ok_inj e e1]; exact e4
  | ofRows hr hs e =>
    obtain ⟨g, e1, -, -, e4⟩ := ofRows_good ((isRow_iff_valid _).1 hr) ((isRow_iff_valid _).1 hs)
    rw [ok_inj e e1]; exact e4
  | @ofVector l g hl e =>
    by_cases hne : l = []
    · subst hne
      have : g = trivial0 := ok_inj e rfl
      rw [this]; exact good_trivial0
    · obtain ⟨g, e1, -, -, -, e5⟩ := ofVector_good (fun r hr => (isRow_iff_valid _).1 (hl r hr)) hne
      rw [ok_inj e e1]; exact e5
  | symmetric h1 h2 h3 e =>
    obtain ⟨g, e1, -, e3, -⟩ := symmetric_good h1 h2 h3
    rw [ok_inj e e1]; exact e3
  | alternating h1 h2 h3 e =>
    obtain ⟨g, e1, -, e3, -⟩ := alternating_good h1 h2 h3
    rw [ok_inj e e1]; exact e3
  | @conjugate g r g' _ hr hl e ih =>
    have hv := (isRow_iff_valid _).1 hr
    rw [ok_inj e (conjugateC_eq ih.grp hv)]
    have := (conj_grp ih.grp hv).1
    rw [show max g.b r.length = g.b by omega] at this
    exact ⟨this, rfl⟩
  | even _ e ih =>
    obtain ⟨g, e1, -, e3, -⟩ := even_good ih
    rw [ok_inj e e1]; exact e3
  | product _ _ hb e iha ihb =>
    obtain ⟨g, e1, -, e3, -⟩ := product_good iha.grp ihb.grp hb
    rw [ok_inj e e1]; exact e3

/-! ## C31 -/

/-- One generator. -/
theorem C31_one {r : Row} (hr : IsRow r) :
    ∃ g, ofRowC r = .ok g ∧ g.b = r.length ∧ Lists g.v g.b (generated [r]) := by
  obtain ⟨g, e1, e2, e3, -⟩ := ofRow_good ((isRow_iff_valid r).1 hr)
  exact ⟨g, e1, e2, e3⟩

/-- Two generators. -/
theorem C31_two {r s : Row} (hr : IsRow r) (hs : IsRow s) :
    ∃ g, ofRowsC r s = .ok g ∧ g.b = max r.length s.length ∧ Lists g.v g.b (generated [r, s]) := by
  obtain ⟨g, e1, e2, e3, -⟩ := ofRows_good ((isRow_iff_valid r).1 hr) ((isRow_iff_valid s).1 hs)
  exact ⟨g, e1, e2, e3⟩

/-- Any number of generators, in any order and with repetitions: construction terminates, and the
result has the largest number of bells. -/
theorem C31_vector {l : List Row} (hl : ∀ r ∈ l, IsRow r) :
    ∃ g, ofVectorC l = .ok g ∧ (∀ r ∈ l, r.length ≤ g.b) ∧ (g.b = 0 ∨ ∃ r ∈ l, r.length = g.b) ∧
      Lists g.v g.b (generated l) := by
  by_cases hne : l = []
  · subst hne
    refine ⟨trivial0, rfl, by simp, Or.inl rfl, ?_⟩
    have hbot : generated [] = ⊥ := by unfold generated; simp
    have hone : permOf ([] : Row) = 1 := permOf_rounds (n := 0) (by omega)
    rw [hbot]
    refine ⟨by simp [trivial0], ?_, ?_⟩
    · intro r
      simp only [trivial0, List.mem_singleton]
      constructor
      · rintro rfl
        exact ⟨⟨by decide, by simp⟩, rfl, by rw [hone]; exact Subgroup.one_mem _⟩
      · rintro ⟨-, h, -⟩; exact List.length_eq_zero_iff.1 h
    · intro p hp
      exact ⟨[], by simp [trivial0], by rw [hone]; exact (Subgroup.mem_bot.1 hp).symm⟩
  · obtain ⟨g, e1, e2, e3, e4, -⟩ := ofVector_good (fun r hr => (isRow_iff_valid _).1 (hl r hr)) hne
    exact ⟨g, e1, e2, Or.inr e3, e4⟩

/-- Every group object lists a group: it holds rounds and is closed under products and inverses. -/
theorem C31_closed {g : Group} (h : Built g) :
    (∃ G, Lists g.v g.b G) ∧ Row.rounds g.b ∈ g.v ∧
    (∀ x ∈ g.v, IsRow x ∧ x.length = g.b) ∧
    (∀ x ∈ g.v, ∀ y ∈ g.v, ∃ z ∈ g.v, Row.mulC x y = .ok z) ∧
    (∀ x ∈ g.v, ∃ z ∈ g.v, Row.inverseC x = .ok z) := by
  have hg := h.good.grp
  refine ⟨⟨_, hg.lists⟩, hg.one, ?_, ?_, ?_⟩
  · intro x hx; exact ⟨(isRow_iff_valid x).2 (hg.rows x hx).1, (hg.rows x hx).2⟩
  · intro x hx y hy
    exact ⟨_, hg.mul x hx y hy, Row.mulC_eq (hg.rows x hx).1 (hg.rows y hy).1⟩
  · intro x hx
    exact ⟨_, hg.inv hx, Row.inverseC_eq (hg.rows x hx).1⟩

/-- Comparison: equal objects are those with the same number of bells and the same rows, and exactly
one of `<`, `==`, `>` holds. -/
theorem C31_compare (a b : Group) (ha : Built a) (hb : Built b) :
    (eq a b = true ↔ a.b = b.b ∧ ∀ r, r ∈ a.v ↔ r ∈ b.v) ∧ (gt a b = lt b a) := by
  constructor
  · unfold eq
    simp only [Bool.and_eq_true, decide_eq_true_eq]
    constructor
    · rintro ⟨h1, h2⟩; exact ⟨h1, by simp [h2]⟩
    · rintro ⟨h1, h2⟩
      refine ⟨h1, ?_⟩
      have hp : a.v.Perm b.v :=
        (List.perm_ext_iff_of_nodup (ha.good.grp.incr.nodup rowSTO) (hb.good.grp.incr.nodup rowSTO)).2 h2
      refine hp.eq_of_pairwise ?_ ha.good.grp.incr hb.good.grp.incr
      intro x y _ _ h3 h4
      rw [lt_asymm' h3] at h4; cases h4
  · unfold gt lt
    congr 1
    · congr 1
      exact decide_eq_decide.2 eq_comm

example : ofVectorC [[1, 0, 2], [0, 2, 1], [1, 0, 2]] =
    .ok ⟨3, [[0, 1, 2], [0, 2, 1], [1, 0, 2], [1, 2, 0], [2, 0, 1], [2, 1, 0]], [[0, 1, 2]]⟩ := by decide +kernel
example : ofRowC [1, 2, 0, 3] = .ok ⟨4, [[0, 1, 2, 3], [1, 2, 0, 3], [2, 0, 1, 3]], [[0, 1, 2], [3]]⟩ := by
  decide +kernel

/-! ## C32 -/

/-- Conjugation by a row that does not have more bells than the group: the rows `r^-1 x r`, written
without inverses. -/
theorem C32_conjugate {g : Group} (hg : Built g) {r : Row} (hr : IsRow r) (hl : r.length ≤ g.b) :
    ∃ g', conjugateC g r = .ok g' ∧ g'.b = g.b ∧ (∃ G, Lists g'.v g'.b G) ∧
      g'.v.length = g.v.length ∧
      ∀ s, s ∈ g'.v ↔ s.length = g.b ∧ ∃ x ∈ g.v, ∀ i, bellAt r (bellAt s i) = bellAt x (bellAt r i) := by
  have hv := (isRow_iff_valid _).1 hr
  have hgg := hg.good.grp
  obtain ⟨h1, h2⟩ := conj_grp hgg hv
  rw [show max g.b r.length = g.b by omega] at h1 h2
  refine ⟨_, conjugateC_eq hgg hv, rfl, ⟨_, h1.lists⟩, ?_, ?_⟩
  · simp only [(sortRows_perm _).length_eq, List.length_map]
  · intro s
    rw [h2]
    simp only [bellAt_eq_fn]
    constructor
    · rintro ⟨x, a, b, c⟩; exact ⟨b, x, a, c⟩
    · rintro ⟨b, x, a, c⟩; exact ⟨x, a, b, c⟩

/-- Conjugation by a row with more bells: the rows are right, but `bells()` still has the old value, and
the bells beyond it are missing from `invariants()`. -/
theorem C32_conjugate_longer {g : Group} (hg : Built g) {r : Row} (hr : IsRow r) (hl : g.b < r.length) :
    ∃ g', conjugateC g r = .ok g' ∧ g'.b = g.b ∧ ∀ s ∈ g'.v, s.length = r.length ∧ g'.b < s.length := by
  have hv := (isRow_iff_valid _).1 hr
  have hgg := hg.good.grp
  obtain ⟨h1, h2⟩ := conj_grp hgg hv
  rw [show max g.b r.length = r.length by omega] at h1 h2
  refine ⟨_, conjugateC_eq hgg hv, rfl, ?_⟩
  intro s hs
  have := (h1.rows s hs).2
  exact ⟨this, by rw [this]; exact hl⟩

/-- The even subgroup. -/
theorem C32_even {g : Group} (hg : Built g) :
    ∃ g', evenSubgroupC g = .ok g' ∧ g'.b = g.b ∧ (∃ G, Lists g'.v g'.b G) ∧
      ∀ r, r ∈ g'.v ↔ r ∈ g.v ∧ Row.signC r = .ok 1 := by
  obtain ⟨g', e1, e2, e3, e4⟩ := even_good hg.good
  exact ⟨g', e1, e2, ⟨_, e3.grp.lists⟩, e4⟩

/-- The invariants, in increasing order. -/
theorem C32_invariants {g : Group} (hg : Built g) :
    (invariants g).Pairwise (· < ·) ∧
    ∀ i, i ∈ invariants g ↔ i < g.b ∧ ∀ r ∈ g.v, bellAt r i = i := by
  rw [invariants_eq hg.good]
  refine ⟨List.Pairwise.filter _ List.pairwise_lt_range, ?_⟩
  intro i
  rw [List.mem_filter, List.mem_range, decide_eq_true_eq]
  simp only [bellAt_eq_fn]

/-- Direct products: an element of the first group followed by an element of the second on the bells
after it. -/
theorem C32_product {a b : Group} (ha : Built a) (hb : Built b) (h : a.b + b.b ≤ 256) :
    ∃ g, directProductC a b = .ok g ∧ g.b = a.b + b.b ∧ (∃ G, Lists g.v g.b G) ∧
      (∀ r, r ∈ g.v ↔ ∃ x ∈ a.v, ∃ y ∈ b.v, r = x ++ y.map (· + a.b)) ∧
      g.v.length = a.v.length * b.v.length := by
  obtain ⟨g, e1, e2, e3, e4, e5⟩ := product_good ha.good.grp hb.good.grp h
  exact ⟨g, e1, e2, ⟨_, e3.grp.lists⟩, e4, e5⟩

example : (ofRowC [1, 0, 2] >>= fun g => conjugateC g [2, 1, 0]) = .ok ⟨3, [[0, 1, 2], [0, 2, 1]], [[0], [1, 2]]⟩ := by
  decide +kernel
example : (ofRowC [1, 0] >>= fun g => conjugateC g [2, 1, 0]) = .ok ⟨2, [[0, 1, 2], [0, 2, 1]], [[0], [1, 2]]⟩ := by
  decide +kernel
example : (ofRowC [1, 0] >>= fun g => directProductC g g) =
    .ok ⟨4, [[0, 1, 2, 3], [0, 1, 3, 2], [1, 0, 2, 3], [1, 0, 3, 2]], [[0, 1], [2, 3]]⟩ := by decide +kernel
example : invariants ⟨4, [[0, 1, 2, 3], [1, 0, 2, 3]], [[0, 1], [2], [3]]⟩ = [2, 3] := by decide

/-! ## C33 -/

/-- The right coset `G r`. -/
def RCoset (g : Group) (r s : Row) : Prop := ∃ x ∈ g.v, s.length = g.b ∧ ∀ i, bellAt s i = bellAt x (bellAt r i)
/-- The left coset `r G`. -/
def LCoset (g : Group) (r s : Row) : Prop :=
  ∃ x ∈ g.v, s.length = max r.length g.b ∧ ∀ i, bellAt s i = bellAt r (bellAt x i)

theorem rcoset_iff {g : Group} (hg : IsGrp g.v g.b) {r : Row} (hl : r.length = g.b) (s : Row) :
    RCoset g r s ↔ s ∈ g.v.map fun x => Row.mul x r := by
  rw [List.mem_map]
  constructor
  · rintro ⟨x, hx, h1, h2⟩
    refine ⟨x, hx, ?_⟩
    apply Row.ext_fn
    · rw [Row.length_mul, (hg.rows x hx).2]; omega
    · intro i _; rw [Row.fn_mul, ← bellAt_eq_fn s, h2, bellAt_eq_fn, bellAt_eq_fn]
  · rintro ⟨x, hx, rfl⟩
    exact ⟨x, hx, by rw [Row.length_mul, (hg.rows x hx).2]; omega, fun i => by simp only [bellAt_eq_fn, Row.fn_mul]⟩

theorem lcoset_iff {g : Group} (hg : IsGrp g.v g.b) {r : Row} (s : Row) :
    LCoset g r s ↔ s ∈ g.v.map fun x => Row.mul r x := by
  rw [List.mem_map]
  constructor
  · rintro ⟨x, hx, h1, h2⟩
    refine ⟨x, hx, ?_⟩
    apply Row.ext_fn
    · rw [Row.length_mul, (hg.rows x hx).2]; omega
    · intro i _; rw [Row.fn_mul, ← bellAt_eq_fn s, h2, bellAt_eq_fn, bellAt_eq_fn]
  · rintro ⟨x, hx, rfl⟩
    exact ⟨x, hx, by rw [Row.length_mul, (hg.rows x hx).2], fun i => by simp only [bellAt_eq_fn, Row.fn_mul]⟩

/-- The label of a right coset is its lexicographically least element, by all three paths of the code.
(The bound on the size comes from the 32-bit factorials; such groups would not fit into memory.) -/
theorem C33_rcoset_least {g : Group} (hg : Built g) (hs : g.v.length < 109641728) {r : Row} (hr : IsRow r)
    (hl : r.length = g.b) :
    ∃ l, rcosetLabelC g r = .ok l ∧ RCoset g r l ∧ ∀ s, RCoset g r s → s ≠ l → LexLt l s := by
  have hgg := hg.good.grp
  obtain ⟨l, e1, e2, e3⟩ := rcoset_spec hg.good hs ((isRow_iff_valid r).1 hr) hl
  have hrl := (rcoset_iff hgg hl l).2 e2
  refine ⟨l, e1, hrl, ?_⟩
  intro s hsc hne
  have h1 := e3 s ((rcoset_iff hgg hl s).1 hsc)
  obtain ⟨-, -, h2, -⟩ := hsc
  obtain ⟨-, -, h3, -⟩ := hrl
  rw [lexLt_iff (by omega)]
  rcases lt_total' l s with h | h | h
  · exact h
  · exact absurd h.symm hne
  · rw [h] at h1; cases h1

/-- The same for left cosets and rows on any number of bells. -/
theorem C33_lcoset_least {g : Group} (hg : Built g) {r : Row} :
    LCoset g r (lcosetLabel g r) ∧ ∀ s, LCoset g r s → s ≠ lcosetLabel g r → LexLt (lcosetLabel g r) s := by
  have hgg := hg.good.grp
  obtain ⟨e2, e3⟩ := lcoset_spec hg.good (r := r)
  have hrl := (lcoset_iff hgg _).2 e2
  refine ⟨hrl, ?_⟩
  intro s hsc hne
  have h1 := e3 s ((lcoset_iff hgg s).1 hsc)
  obtain ⟨-, -, h2, -⟩ := hsc
  obtain ⟨-, -, h3, -⟩ := hrl
  rw [lexLt_iff (by omega)]
  rcases lt_total' (lcosetLabel g r) s with h | h | h
  · exact h
  · exact absurd h.symm hne
  · rw [h] at h1; cases h1

/-- Labels are equal exactly when the right cosets are. -/
theorem C33_rcoset_iff {g : Group} (hg : Built g) (hs : g.v.length < 109641728) {r s : Row} (hr : IsRow r)
    (hr' : IsRow s) (hl : r.length = g.b) (hl' : s.length = g.b) :
    rcosetLabelC g r = rcosetLabelC g s ↔ ∀ t, RCoset g r t ↔ RCoset g s t := by
  have hgg := hg.good.grp
  obtain ⟨l, e1, e2, e3⟩ := C33_rcoset_least hg hs hr hl
  obtain ⟨m, f1, f2, f3⟩ := C33_rcoset_least hg hs hr' hl'
  have key : ∀ {r s : Row}, r.length = g.b → s.length = g.b → (∃ t, RCoset g r t ∧ RCoset g s t) →
      ∀ t, RCoset g r t → RCoset g s t := by
    rintro r s hl hl' ⟨u, ⟨x, hx, -, hu⟩, ⟨y, hy, -, hu'⟩⟩ t ⟨z, hz, h1, h2⟩
    have hxv := (hgg.rows x hx).1
    refine ⟨_, hgg.mul z hz _ (hgg.mul _ (hgg.inv hx) y hy), h1, ?_⟩
    intro i
    rw [h2 i]
    simp only [bellAt_eq_fn] at *
    rw [Row.fn_mul, Row.fn_mul, ← hu', hu, Row.fn_inverse hxv, hxv.find_fn]
  rw [e1, f1]
  constructor
  · intro e
    injection e with e
    subst e
    intro t
    exact ⟨key hl hl' ⟨l, e2, f2⟩ t, key hl' hl ⟨l, f2, e2⟩ t⟩
  · intro h
    by_contra hne
    have hlm : m ≠ l := fun e => hne (by rw [e])
    have h1 := e3 m ((h m).2 f2) hlm
    have h2 := f3 l ((h l).1 e2) (Ne.symm hlm)
    obtain ⟨k, a, b⟩ := h1
    obtain ⟨k', a', b'⟩ := h2
    rcases Nat.lt_trichotomy k k' with h | h | h
    · have := a' k h; omega
    · subst h; omega
    · have := a k' h; omega

/-- Labels of left cosets, for rows on no fewer bells than the group. -/
theorem C33_lcoset_iff {g : Group} (hg : Built g) {r s : Row} (hr : IsRow r)
    (hr' : IsRow s) (hl : r.length = s.length) :
    lcosetLabel g r = lcosetLabel g s ↔ ∀ t, LCoset g r t ↔ LCoset g s t := by
  have hgg := hg.good.grp
  obtain ⟨e2, e3⟩ := C33_lcoset_least hg (r := r)
  obtain ⟨f2, f3⟩ := C33_lcoset_least hg (r := s)
  have key : ∀ {r s : Row}, IsRow r → IsRow s → r.length = s.length → (∃ t, LCoset g r t ∧ LCoset g s t) →
      ∀ t, LCoset g r t → LCoset g s t := by
    rintro r s hr hs hl ⟨u, ⟨x, hx, -, hu⟩, ⟨y, hy, -, hu'⟩⟩ t ⟨z, hz, h1, h2⟩
    have hxv := (hgg.rows x hx).1
    refine ⟨_, hgg.mul y hy _ (hgg.mul _ (hgg.inv hx) z hz), by rw [h1, hl], ?_⟩
    intro i
    rw [h2 i]
    simp only [bellAt_eq_fn] at *
    rw [Row.fn_mul, Row.fn_mul, ← hu', hu, Row.fn_fn_inverse hxv]
  constructor
  · intro e t
    rw [e] at e2
    exact ⟨key hr hr' hl ⟨_, e2, f2⟩ t, key hr' hr hl.symm ⟨_, f2, e2⟩ t⟩
  · intro h
    by_contra hne
    have h1 := e3 _ ((h _).2 f2) (Ne.symm hne)
    have h2 := f3 _ ((h _).1 e2) hne
    obtain ⟨k, a, b⟩ := h1
    obtain ⟨k', a', b'⟩ := h2
    rcases Nat.lt_trichotomy k k' with h | h | h
    · have := a' k h; omega
    · subst h; omega
    · have := a k' h; omega

/-- Members have the label rounds ("thus if r ∈ G the label is rounds", group.h). -/
theorem C33_member {g : Group} (hg : Built g) (hs : g.v.length < 109641728) {r : Row} (hr : r ∈ g.v) :
    rcosetLabelC g r = .ok (Row.rounds g.b) ∧ lcosetLabel g r = Row.rounds g.b := by
  have hgg := hg.good.grp
  have hv := (hgg.rows r hr)
  have hmin : ∀ s : Row, s.length = g.b → Row.Valid s → Row.lt s (Row.rounds g.b) = false := by
    intro s hs hsv
    by_contra hc
    obtain ⟨k, a, b⟩ := (lexLt_iff (l := s) (m := Row.rounds g.b) (by rw [hs]; simp)).2 (by simpa using hc)
    simp only [bellAt_eq_fn, Row.fn_rounds] at a b
    have h2 := a _ b
    have := hsv.fn_inj h2
    omega
  have hfin : ∀ l : Row, l.length = g.b → Row.Valid l → Row.lt (Row.rounds g.b) l = false → l = Row.rounds g.b := by
    intro l h1 h2 h3
    rcases lt_total' l (Row.rounds g.b) with h | h | h
    · rw [hmin l h1 h2] at h; cases h
    · exact h
    · rw [h] at h3; cases h3
  constructor
  · obtain ⟨l, e1, e2, e3⟩ := rcoset_spec hg.good hs hv.1 hv.2
    obtain ⟨x, hx, rfl⟩ := List.mem_map.1 e2
    have hm := hgg.rows _ (hgg.mul x hx r hr)
    rw [e1, hfin _ hm.2 hm.1 (e3 _ (List.mem_map.2 ⟨_, hgg.inv hr, Row.inverse_mul hv.1 ▸ by rw [hv.2]⟩))]
  · obtain ⟨e2, e3⟩ := lcoset_spec hg.good (r := r)
    obtain ⟨x, hx, e⟩ := List.mem_map.1 e2
    have hm := hgg.rows _ (hgg.mul r hr x hx)
    rw [← e] at e3 ⊢
    exact hfin _ hm.2 hm.1 (e3 _ (List.mem_map.2 ⟨_, hgg.inv hr, Row.mul_inverse hv.1 ▸ by rw [hv.2]⟩))

/-- A row with more bells than the group: the fast path throws (some positions of the label are never
written), the slow path does not. -/
theorem C33_rcoset_longer : ∃ g, symmetricC 3 0 3 = .ok g ∧
    rcosetLabelC g [1, 0, 2, 4, 3] = .throw .rowInvalid := by
  refine ⟨⟨3, [[0, 1, 2], [0, 2, 1], [1, 0, 2], [1, 2, 0], [2, 0, 1], [2, 1, 0]], [[0, 1, 2]]⟩, ?_, ?_⟩ <;>
    decide +kernel

/-- A row with fewer bells than the group: the fast path writes beyond the end of the label. -/
theorem C33_rcoset_shorter : ∃ g, symmetricC 3 0 3 = .ok g ∧ rcosetLabelC g [1, 0] = .ub := by
  refine ⟨⟨3, [[0, 1, 2], [0, 2, 1], [1, 0, 2], [1, 2, 0], [2, 0, 1], [2, 1, 0]], [[0, 1, 2]]⟩, ?_, ?_⟩ <;>
    decide +kernel

example : (symmetricC 3 0 3 >>= fun g => rcosetLabelC g [2, 0, 1]) = .ok [0, 1, 2] := by decide +kernel
example : (ofRowC [1, 2, 0, 3] >>= fun g => rcosetLabelC g [2, 3, 1, 0]) = .ok [0, 3, 2, 1] := by decide +kernel

/-! ## C51: named groups -/

/-- All rows of the extent, `nw!` of them. -/
theorem C51_symmetric {nw nh nt : Nat} (h : nh + nw ≤ nt) (ht : nt ≤ 256) (h0 : 0 < nt) :
    ∃ g, symmetricC nw nh nt = .ok g ∧ g.b = nt ∧ (∃ G, Lists g.v g.b G) ∧
      (∀ r, r ∈ g.v ↔ InExtent nw nh nt r) ∧ g.v.length = Spec.fact nw := by
  obtain ⟨g, e1, e2, e3, e4, e5⟩ := symmetric_good h ht h0
  exact ⟨g, e1, e2, ⟨_, e3.grp.lists⟩, e4, by rw [fact_eq]; exact e5⟩

/-- All even rows of the extent, half of `nw!` (one row when `nw` is 0 or 1). -/
theorem C51_alternating {nw nh nt : Nat} (h : nh + nw ≤ nt) (ht : nt ≤ 256) (h0 : 0 < nt) :
    ∃ g, alternatingC nw nh nt = .ok g ∧ g.b = nt ∧ (∃ G, Lists g.v g.b G) ∧
      (∀ r, r ∈ g.v ↔ InExtent nw nh nt r ∧ Row.signC r = .ok 1) ∧ g.v.length = (Spec.fact nw + 1) / 2 := by
  obtain ⟨g, e1, e2, e3, e4, e5⟩ := alternating_good h ht h0
  exact ⟨g, e1, e2, ⟨_, e3.grp.lists⟩, e4, by rw [fact_eq]; exact e5⟩

/-- Leaving out the total number of bells is the same as giving `nh + nw`. -/
theorem C51_default_total (nw nh : Nat) :
    symmetricC nw nh 0 = symmetricC nw nh (nh + nw) ∧ alternatingC nw nh 0 = alternatingC nw nh (nh + nw) ∧
    cyclicCC nw nh 0 = cyclicCC nw nh (nh + nw) ∧ cyclicRC nw nh 0 = cyclicRC nw nh (nh + nw) := by
  refine ⟨?_, ?_, ?_, ?_⟩
  · unfold symmetricC; simp only [if_true]; split_ifs with h <;> simp_all
  · unfold alternatingC; simp only [if_true]; split_ifs with h <;> simp_all
  · unfold cyclicCC; simp only [if_true]; split_ifs with h <;> simp_all
  · unfold cyclicRC; simp only [if_true]; split_ifs with h <;> simp_all

/-- The trivial group. -/
theorem C51_trivial {nt : Nat} (ht : nt ≤ 256) : ∃ g, trivialC nt = .ok g ∧ g.b = nt ∧ g.v = [Row.rounds nt] := by
  obtain ⟨g, e1, e2, e3, e4⟩ := ofRow_good (Row.valid_rounds ht)
  unfold trivialC
  rw [Row.roundsC_eq ht]
  have hb : g.b = nt := by rw [e2]; simp
  refine ⟨g, e1, hb, ?_⟩
  have hbot : generated [Row.rounds nt] = ⊥ := by
    unfold generated
    simp [permOf_rounds ht]
  rw [hbot, hb] at e3
  have hlen : g.v.length = 1 := lists_length e3 [1] (by simp) (by simp)
  obtain ⟨w, hw⟩ := List.length_eq_one_iff.1 hlen
  have := e4.grp.one
  rw [hw, hb] at this
  rw [hw, List.mem_singleton.1 this]

/-- Two generators `P`, `Q` where `Q` is a power of `P`. -/
theorem cyclic_pair {nw nt : Nat} {P Q : Row} (hP : Row.Valid P) (hQ : Row.Valid Q) (h0 : 0 < nw)
    (hl : max P.length Q.length = nt) (ho : orderOf (permOf P) = nw) (hq : ∃ m : Nat, permOf Q = permOf P ^ m) :
    ∃ g, ofRowsC P Q = .ok g ∧ g.b = nt ∧ g.v.length = nw ∧
      ∀ r, r ∈ g.v ↔ IsRow r ∧ r.length = nt ∧ ∃ k, k < nw ∧ ∀ i, bellAt r i = iter (bellAt P) k i := by
  obtain ⟨g, e1, e2, e3, -⟩ := ofRows_good hP hQ
  have hb : g.b = nt := by rw [e2, hl]
  rw [generated_pair] at e3
  have hm := closure_cyclic ho h0 hq
  refine ⟨g, e1, hb, ?_, ?_⟩
  · rw [lists_length e3 _ (nodup_pows ho) (by
      intro x; rw [hm, List.mem_map]
      constructor
      · rintro ⟨k, hk, rfl⟩; exact ⟨k, List.mem_range.2 hk, rfl⟩
      · rintro ⟨k, hk, rfl⟩; exact ⟨k, List.mem_range.1 hk, rfl⟩)]
    simp
  · intro r
    rw [e3.mem, hb, hm]
    constructor
    · rintro ⟨h1, h2, k, hk, e⟩
      refine ⟨h1, h2, k, hk, ?_⟩
      intro i
      rw [iter_pow hP]
      exact (permOf_eq_iff ((isRow_iff_valid r).1 h1) _).1 e i
    · rintro ⟨h1, h2, k, hk, e⟩
      refine ⟨h1, h2, k, hk, (permOf_eq_iff ((isRow_iff_valid r).1 h1) _).2 ?_⟩
      intro i
      rw [e i, iter_pow hP]

/-- Two generators where `Q` inverts `P` and is not a power of it. -/
theorem dihedral_pair {nw nt : Nat} {P Q : Row} (hP : Row.Valid P) (hQ : Row.Valid Q) (h0 : 0 < nw)
    (hl : max P.length Q.length = nt) (ho : orderOf (permOf P) = nw) (hq : ∀ m : Nat, permOf Q ≠ permOf P ^ m)
    (h1 : permOf Q * permOf Q = 1) (h2 : permOf P * permOf Q * permOf P = permOf Q) :
    ∃ g, ofRowsC P Q = .ok g ∧ g.b = nt ∧ g.v.length = 2 * nw ∧
      ∀ r, r ∈ g.v ↔ IsRow r ∧ r.length = nt ∧ ∃ k, k < nw ∧
        ((∀ i, bellAt r i = iter (bellAt P) k i) ∨ (∀ i, bellAt r i = iter (bellAt P) k (bellAt Q i))) := by
  obtain ⟨g, e1, e2, e3, -⟩ := ofRows_good hP hQ
  have hb : g.b = nt := by rw [e2, hl]
  rw [generated_pair] at e3
  have hm := closure_dihedral ho h0 h1 h2
  refine ⟨g, e1, hb, ?_, ?_⟩
  · rw [lists_length e3 _ (nodup_dihedral ho hq h0) (by
      intro x; rw [hm, List.mem_append, List.mem_map, List.mem_map]
      constructor
      · rintro ⟨k, hk, rfl | rfl⟩
        · exact Or.inl ⟨k, List.mem_range.2 hk, rfl⟩
        · exact Or.inr ⟨k, List.mem_range.2 hk, rfl⟩
      · rintro (⟨k, hk, rfl⟩ | ⟨k, hk, rfl⟩)
        · exact ⟨k, List.mem_range.1 hk, Or.inl rfl⟩
        · exact ⟨k, List.mem_range.1 hk, Or.inr rfl⟩)]
    simp; omega
  · intro r
    rw [e3.mem, hb, hm]
    have hQi : ∀ i, bellAt Q i = permOf Q i := fun i => by rw [permOf_apply hQ, bellAt_eq_fn]
    constructor
    · rintro ⟨h1, h2, k, hk, e⟩
      refine ⟨h1, h2, k, hk, ?_⟩
      rcases e with e | e
      · exact Or.inl fun i => by rw [iter_pow hP]; exact (permOf_eq_iff ((isRow_iff_valid r).1 h1) _).1 e i
      · refine Or.inr fun i => ?_
        rw [iter_pow hP, hQi, (permOf_eq_iff ((isRow_iff_valid r).1 h1) _).1 e i, Equiv.Perm.mul_apply]
    · rintro ⟨h1, h2, k, hk, e⟩
      refine ⟨h1, h2, k, hk, ?_⟩
      rcases e with e | e
      · exact Or.inl ((permOf_eq_iff ((isRow_iff_valid r).1 h1) _).2 fun i => by rw [e i, iter_pow hP])
      · refine Or.inr ((permOf_eq_iff ((isRow_iff_valid r).1 h1) _).2 fun i => ?_)
        rw [e i, iter_pow hP, hQi, Equiv.Perm.mul_apply]

/-- `cyclic_c`: the `nw` powers of the rotation. -/
theorem C51_cyclic_c {nw nh nt : Nat} (h : nh + nw ≤ nt) (ht : nt ≤ 256) (h0 : 0 < nw) :
    ∃ g, cyclicCC nw nh nt = .ok g ∧ g.b = nt ∧ g.v.length = nw ∧
      ∀ r, r ∈ g.v ↔ IsRow r ∧ r.length = nt ∧
        ∃ k, k < nw ∧ ∀ i, bellAt r i = iter (bellAt (Row.cyclicC (nh + nw) nh 1)) k i := by
  have hc := valid_cyclic (n := nh + nw) (h := nh) (by omega)
  have := cyclic_pair (nt := nt) hc.1 (Row.valid_rounds ht) h0 (by rw [hc.2]; simp; omega)
    ((cyc_cyclic (nh := nh) (by omega) h0).order num_numC h0) ⟨0, by rw [permOf_rounds ht]; rfl⟩
  unfold cyclicCC
  simp only
  rw [if_neg (by omega), Row.roundsC_eq ht]
  exact this

/-- `cyclic_r`: the `nw` powers of the plain hunt. -/
theorem C51_cyclic_r {nw nh nt : Nat} (h : nh + nw ≤ nt) (ht : nt ≤ 256) (h255 : nh + nw ≤ 255) (h0 : 0 < nw) :
    ∃ p g, Row.pblhC (nh + nw) nh = .ok p ∧ cyclicRC nw nh nt = .ok g ∧ g.b = nt ∧ g.v.length = nw ∧
      ∀ r, r ∈ g.v ↔ IsRow r ∧ r.length = nt ∧ ∃ k, k < nw ∧ ∀ i, bellAt r i = iter (bellAt p) k i := by
  obtain ⟨p, p1, p2, p3, p4⟩ := pblh_row h255
  obtain ⟨g, e1, e2⟩ := cyclic_pair (nt := nt) p2 (Row.valid_rounds ht) h0 (by rw [p3]; simp; omega)
    ((p4 h0).order num_numR h0) ⟨0, by rw [permOf_rounds ht]; rfl⟩
  refine ⟨p, g, p1, ?_, e2⟩
  unfold cyclicRC
  simp only
  rw [if_neg (by omega), p1, Out.ok_bind, Row.roundsC_eq ht]
  exact e1

/-- `dihedral_c`: for three or more bells the group has `2 nw` elements, the powers of the rotation
with and without a reflection. -/
theorem C51_dihedral_c {nw nh nt : Nat} (h : nh + nw ≤ nt) (ht : nt ≤ 256) (h3 : 3 ≤ nw) :
    ∃ q g, Row.reverseRounds3C nw nh nt = .ok q ∧ dihedralCC nw nh nt = .ok g ∧ g.b = nt ∧
      g.v.length = 2 * nw ∧
      ∀ r, r ∈ g.v ↔ IsRow r ∧ r.length = nt ∧ ∃ k, k < nw ∧
        ((∀ i, bellAt r i = iter (bellAt (Row.cyclicC (nh + nw) nh 1)) k i) ∨
         (∀ i, bellAt r i = iter (bellAt (Row.cyclicC (nh + nw) nh 1)) k (bellAt q i))) := by
  have hc := valid_cyclic (n := nh + nw) (h := nh) (by omega)
  obtain ⟨q, q1, q2, q3, q4, q5⟩ := rev_row h ht (by omega)
  have cyc := cyc_cyclic (nw := nw) (nh := nh) (by omega) (by omega)
  have qm : ∀ i, nh ≤ i → i < nh + nw → nh ≤ permOf q i ∧ permOf q i < nh + nw := fun i h1 h2 => by
    rw [q5 i h1 h2]; omega
  obtain ⟨r1, r2⟩ := cyc.refl_conj num_numC q4 qm (rev_numC q5)
  obtain ⟨g, e1, e2⟩ := dihedral_pair (nt := nt) hc.1 q2 (by omega) (by rw [hc.2, q3]; omega)
    (cyc.order num_numC (by omega)) (not_pow cyc h3 (rev_numC q5)) r1 r2
  refine ⟨q, g, q1, ?_, e2⟩
  unfold dihedralCC
  simp only
  rw [if_neg (by omega), q1, Out.ok_bind]
  exact e1

/-- `dihedral_r` for an odd number of bells: again a group of order `2 nw`. -/
theorem C51_dihedral_r_odd {nw nh nt : Nat} (h : nh + nw ≤ nt) (ht : nt ≤ 256) (h255 : nh + nw ≤ 255)
    (h3 : 3 ≤ nw) (hodd : nw % 2 = 1) :
    ∃ p q g, Row.pblhC (nh + nw) nh = .ok p ∧ Row.reverseRounds3C nw nh nt = .ok q ∧
      dihedralRC nw nh nt = .ok g ∧ g.b = nt ∧ g.v.length = 2 * nw ∧
      ∀ r, r ∈ g.v ↔ IsRow r ∧ r.length = nt ∧ ∃ k, k < nw ∧
        ((∀ i, bellAt r i = iter (bellAt p) k i) ∨ (∀ i, bellAt r i = iter (bellAt p) k (bellAt q i))) := by
  obtain ⟨p, p1, p2, p3, p4⟩ := pblh_row h255
  obtain ⟨q, q1, q2, q3, q4, q5⟩ := rev_row h ht (by omega)
  have cyc := p4 (by omega)
  have qm : ∀ i, nh ≤ i → i < nh + nw → nh ≤ permOf q i ∧ permOf q i < nh + nw := fun i h1 h2 => by
    rw [q5 i h1 h2]; omega
  obtain ⟨r1, r2⟩ := cyc.refl_conj num_numR q4 qm (rev_numR_odd hodd q5)
  obtain ⟨g, e1, e2⟩ := dihedral_pair (nt := nt) p2 q2 (by omega) (by rw [p3, q3]; omega)
    (cyc.order num_numR (by omega)) (not_pow cyc h3 (rev_numR_odd hodd q5)) r1 r2
  refine ⟨p, q, g, p1, q1, ?_, e2⟩
  unfold dihedralRC
  simp only
  rw [if_neg (by omega), p1, Out.ok_bind, q1, Out.ok_bind]
  exact e1

/-- `dihedral_r` for an even number of bells is *not* a group of order `2 nw`, contrary to its
documentation: reverse rounds is a power of the plain hunt, and the group is `cyclic_r`. -/
theorem C51_dihedral_r_even {nw nh nt : Nat} (h : nh + nw ≤ nt) (ht : nt ≤ 256) (h255 : nh + nw ≤ 255)
    (h0 : 0 < nw) (heven : nw % 2 = 0) :
    ∃ g c, dihedralRC nw nh nt = .ok g ∧ cyclicRC nw nh nt = .ok c ∧ eq g c = true ∧ g.v.length = nw := by
  obtain ⟨p, p1, p2, p3, p4⟩ := pblh_row h255
  obtain ⟨q, q1, q2, q3, q4, q5⟩ := rev_row h ht (by omega)
  have cyc := p4 h0
  have hq : permOf q = permOf p ^ (nw / 2) := by
    ext i
    by_cases hi : i < nh ∨ nh + nw ≤ i
    · rw [q4 i hi, (cyc.pow _).1 i hi]
    · push Not at hi
      obtain ⟨a, b, c⟩ := (cyc.pow (nw / 2)).2 i hi.1 hi.2
      refine num_numR _ _ ?_ ?_ a b ?_
      · rw [q5 i hi.1 hi.2]; omega
      · rw [q5 i hi.1 hi.2]; omega
      · exact (rev_numR_even heven q5 i hi.1 hi.2).trans c.symm
  obtain ⟨g, e1, e2, e3, e4⟩ := cyclic_pair (nt := nt) p2 q2 h0 (by rw [p3, q3]; omega)
    (cyc.order num_numR h0) ⟨_, hq⟩
  obtain ⟨p', c, f0, f1, f2, f3, f4⟩ := C51_cyclic_r h ht h255 h0
  have : p' = p := ok_inj f0 p1
  subst this
  have hg : dihedralRC nw nh nt = .ok g := by
    unfold dihedralRC
    simp only
    rw [if_neg (by omega), p1, Out.ok_bind, q1, Out.ok_bind]
    exact e1
  have bg : Built g := Built.ofRows ((isRow_iff_valid _).2 p2) ((isRow_iff_valid _).2 q2) e1
  have bc : Built c := by
    unfold cyclicRC at f1
    simp only at f1
    rw [if_neg (by omega), p1, Out.ok_bind, Row.roundsC_eq ht] at f1
    exact Built.ofRows ((isRow_iff_valid _).2 p2) ((isRow_iff_valid _).2 (Row.valid_rounds ht)) f1
  refine ⟨g, c, hg, f1, ((C31_compare g c bg bc).1).2 ⟨by rw [e2, f2], ?_⟩, e3⟩
  intro r
  rw [e4, f4]

example : (dihedralRC 4 0 0 >>= fun g => .ok g.v.length) = .ok 4 := by decide +kernel
example : (dihedralCC 4 0 0 >>= fun g => .ok g.v.length) = .ok 8 := by decide +kernel
example : (alternatingC 3 1 5 >>= fun g => .ok g.v) =
    .ok [[0, 1, 2, 3, 4], [0, 2, 3, 1, 4], [0, 3, 1, 2, 4]] := by decide +kernel

end Group
end Ringing
