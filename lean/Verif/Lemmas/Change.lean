import Verif.Model.Change
import Verif.Spec.Change
import Verif.Lemmas.Sign

namespace Ringing
open Spec
namespace Change

/-- Disjoint pairs in increasing order. -/
def Gap (ss : List Nat) : Prop := ss.Pairwise (fun s t => s + 2 ≤ t)

theorem Gap.tail {s : Nat} {ss : List Nat} (h : Gap (s :: ss)) : Gap ss := (List.pairwise_cons.1 h).2
theorem Gap.le {s : Nat} {ss : List Nat} (h : Gap (s :: ss)) : ∀ t ∈ ss, s + 2 ≤ t :=
  (List.pairwise_cons.1 h).1

theorem wf_iff (c : Change) : c.WF ↔ IsChange c.n c.swaps := Iff.rfl

theorem WF.gap {c : Change} (h : c.WF) : Gap c.swaps := h.2.1

theorem moveTo_nil (i : Nat) : moveTo [] i = i := by simp [moveTo]

theorem moveTo_cons_self {s : Nat} {ss : List Nat} : moveTo (s :: ss) s = s + 1 := by simp [moveTo]

theorem moveTo_cons_succ {s : Nat} {ss : List Nat} (h : Gap (s :: ss)) : moveTo (s :: ss) (s + 1) = s := by
  have := h.le
  unfold moveTo
  rw [if_neg, if_pos]
  · simp
  · simp
  · intro hm
    rcases List.mem_cons.1 hm with h' | h'
    · omega
    · have := this _ h'; omega

theorem moveTo_cons_ne {s i : Nat} {ss : List Nat} (h1 : i ≠ s) (h2 : i ≠ s + 1) :
    moveTo (s :: ss) i = moveTo ss i := by
  unfold moveTo
  have e1 : (i ∈ s :: ss) ↔ i ∈ ss := by simp [h1]
  have e2 : (i ≠ 0 ∧ i - 1 ∈ s :: ss) ↔ (i ≠ 0 ∧ i - 1 ∈ ss) := by
    constructor
    · rintro ⟨a, b⟩
      rcases List.mem_cons.1 b with h | h
      · omega
      · exact ⟨a, h⟩
    · rintro ⟨a, b⟩; exact ⟨a, List.mem_cons_of_mem _ b⟩
  simp only [e1, e2]

theorem moveTo_of_lt {ss : List Nat} {i : Nat} (h : ∀ t ∈ ss, i < t) : moveTo ss i = i := by
  unfold moveTo
  rw [if_neg, if_neg]
  · rintro ⟨h1, h2⟩; have := h _ h2; omega
  · intro hm; have := h _ hm; omega

theorem posLoop_of_lt {ss : List Nat} {i : Nat} (h : ∀ t ∈ ss, i < t) : posLoop ss i = i := by
  cases ss with
  | nil => rfl
  | cons s ss => have := h s (by simp); unfold posLoop; rw [if_neg (by omega)]

theorem posLoop_eq {ss : List Nat} (h : Gap ss) (i : Nat) : posLoop ss i = moveTo ss i := by
  induction ss with
  | nil => simp [posLoop, moveTo_nil]
  | cons s ss ih =>
    have hle := h.le
    unfold posLoop
    by_cases h1 : s ≤ i
    · rw [if_pos h1]
      by_cases h2 : s + 1 = i
      · rw [if_pos h2, ← h2, moveTo_cons_succ h]
        apply posLoop_of_lt
        intro t ht; have := hle t ht; omega
      · rw [if_neg h2]
        by_cases h3 : s = i
        · subst h3
          rw [if_pos rfl, moveTo_cons_self]
          apply posLoop_of_lt
          intro t ht; have := hle t ht; omega
        · rw [if_neg h3, ih h.tail, moveTo_cons_ne (by omega) (by omega)]
    · rw [if_neg h1, moveTo_of_lt]
      intro t ht
      rcases List.mem_cons.1 ht with h' | h'
      · omega
      · have := hle t h'; omega

theorem WF.pos_eq {c : Change} (h : c.WF) (i : Nat) : c.pos i = moveTo c.swaps i := posLoop_eq h.gap i

theorem Gap.not_mem_succ {ss : List Nat} (h : Gap ss) {i : Nat} (hi : i ∈ ss) : i + 1 ∉ ss := by
  induction ss with
  | nil => simp at hi
  | cons s ss ih =>
    intro hc
    rcases List.mem_cons.1 hi with h1 | h1 <;> rcases List.mem_cons.1 hc with h2 | h2
    · omega
    · have := h.le _ h2; omega
    · have := h.le _ h1; omega
    · exact ih h.tail h1 h2

theorem moveTo_mem {ss : List Nat} {i : Nat} (hi : i ∈ ss) : moveTo ss i = i + 1 := by simp [moveTo, hi]

theorem moveTo_mem_succ {ss : List Nat} (h : Gap ss) {i : Nat} (hi : i ∈ ss) : moveTo ss (i + 1) = i := by
  simp [moveTo, h.not_mem_succ hi, hi]

theorem moveTo_cases {ss : List Nat} (_h : Gap ss) (i : Nat) :
    (i ∈ ss ∧ moveTo ss i = i + 1) ∨ (∃ j ∈ ss, i = j + 1 ∧ moveTo ss i = j) ∨
      (moveTo ss i = i ∧ i ∉ ss ∧ ∀ j ∈ ss, i ≠ j + 1) := by
  by_cases h1 : i ∈ ss
  · exact Or.inl ⟨h1, moveTo_mem h1⟩
  · by_cases h2 : i ≠ 0 ∧ i - 1 ∈ ss
    · refine Or.inr (Or.inl ⟨i - 1, h2.2, by omega, ?_⟩)
      unfold moveTo; rw [if_neg h1, if_pos h2]
    · refine Or.inr (Or.inr ⟨by unfold moveTo; rw [if_neg h1, if_neg h2], h1, ?_⟩)
      rintro j hj rfl
      exact h2 ⟨by omega, by simpa using hj⟩

theorem moveTo_moveTo {ss : List Nat} (h : Gap ss) (i : Nat) : moveTo ss (moveTo ss i) = i := by
  rcases moveTo_cases h i with ⟨h1, h2⟩ | ⟨j, h1, h2, h3⟩ | ⟨h1, -⟩
  · rw [h2, moveTo_mem_succ h h1]
  · rw [h3, moveTo_mem h1, h2]
  · rw [h1, h1]

theorem moveTo_inj {ss : List Nat} (h : Gap ss) {i j : Nat} (e : moveTo ss i = moveTo ss j) : i = j := by
  rw [← moveTo_moveTo h i, e, moveTo_moveTo h]

theorem moveTo_lt {ss : List Nat} (h : Gap ss) {n m : Nat} (hn : ∀ s ∈ ss, s + 2 ≤ n) (hm : n ≤ m)
    {i : Nat} (hi : i < m) : moveTo ss i < m := by
  rcases moveTo_cases h i with ⟨h1, h2⟩ | ⟨j, h1, h2, h3⟩ | ⟨h1, -⟩
  · have := hn i h1; omega
  · omega
  · omega

theorem moveTo_of_ge {ss : List Nat} (h : Gap ss) {n : Nat} (hn : ∀ s ∈ ss, s + 2 ≤ n)
    {i : Nat} (hi : n ≤ i) : moveTo ss i = i := by
  rcases moveTo_cases h i with ⟨h1, h2⟩ | ⟨j, h1, h2, h3⟩ | ⟨h1, -⟩
  · have := hn i h1; omega
  · have := hn j h1; omega
  · exact h1

theorem WF.pos_pos {c : Change} (h : c.WF) (i : Nat) : c.pos (c.pos i) = i := by
  rw [h.pos_eq, h.pos_eq, moveTo_moveTo h.gap]

theorem WF.pos_lt {c : Change} (h : c.WF) {i m : Nat} (hm : c.n ≤ m) (hi : i < m) : c.pos i < m := by
  rw [h.pos_eq]; exact moveTo_lt h.gap h.2.2 hm hi

theorem WF.pos_of_ge {c : Change} (h : c.WF) {i : Nat} (hi : c.n ≤ i) : c.pos i = i := by
  rw [h.pos_eq]; exact moveTo_of_ge h.gap h.2.2 hi

theorem WF.pos_inj {c : Change} (h : c.WF) {i j : Nat} (e : c.pos i = c.pos j) : i = j := by
  rw [← h.pos_pos i, e, h.pos_pos]

/-! ### findswap, findplace -/

theorem findswapLoop_eq {ss : List Nat} (h : Gap ss) (i : Nat) :
    findswapLoop i ss = true ↔ i ∈ ss := by
  induction ss with
  | nil => simp [findswapLoop]
  | cons s ss ih =>
    unfold findswapLoop
    have hle := h.le
    by_cases h1 : s ≤ i
    · rw [if_pos h1]
      by_cases h2 : s = i
      · simp [h2]
      · rw [if_neg h2, ih h.tail]; simp [Ne.symm h2]
    · rw [if_neg h1]
      simp only [Bool.false_eq_true, false_iff]
      intro hm
      rcases List.mem_cons.1 hm with h' | h'
      · omega
      · have := hle _ h'; omega

theorem findplaceLoop_eq {ss : List Nat} (h : Gap ss) (i : Nat) :
    findplaceLoop i ss = true ↔ moveTo ss i = i := by
  induction ss with
  | nil => simp [findplaceLoop, moveTo_nil]
  | cons s ss ih =>
    unfold findplaceLoop
    have hle := h.le
    by_cases h1 : s ≤ i
    · rw [if_pos h1]
      by_cases h2 : s = i ∨ s + 1 = i
      · rw [if_pos h2]
        rcases h2 with rfl | rfl
        · rw [moveTo_cons_self]; simp
        · rw [moveTo_cons_succ h]; simp
      · rw [if_neg h2, ih h.tail, moveTo_cons_ne (by omega) (by omega)]
    · rw [if_neg h1, moveTo_of_lt]
      · simp
      · intro t ht
        rcases List.mem_cons.1 ht with h' | h'
        · omega
        · have := hle t h'; omega

theorem WF.swaps_nil {c : Change} (h : c.WF) (hn : c.n = 0) : c.swaps = [] := by
  rcases hs : c.swaps with _ | ⟨s, ss⟩
  · rfl
  · have := h.2.2 s (by simp [hs]); omega

theorem WF.findswap_eq {c : Change} (h : c.WF) (i : Nat) : c.findswap i = true ↔ i ∈ c.swaps := by
  unfold findswap
  split
  · rename_i hn; simp [h.swaps_nil hn]
  · exact findswapLoop_eq h.gap i

theorem WF.findplace_eq {c : Change} (h : c.WF) (i : Nat) :
    c.findplace i = true ↔ moveTo c.swaps i = i := by
  unfold findplace
  split
  · rename_i hn; simp [h.swaps_nil hn, moveTo_nil]
  · exact findplaceLoop_eq h.gap i

/-! ### places -/

theorem mem_placesFrom {n : Nat} {ss : List Nat} (h : Gap ss) (hn : ∀ s ∈ ss, s + 2 ≤ n) {b : Nat}
    (hb : ∀ s ∈ ss, b ≤ s) (i : Nat) :
    i ∈ placesFrom n ss b ↔ b ≤ i ∧ i < n ∧ moveTo ss i = i := by
  induction ss generalizing b with
  | nil =>
    simp only [placesFrom, List.mem_range'_1, moveTo_nil, and_true]
    constructor
    · rintro ⟨h1, h2⟩; exact ⟨h1, by omega⟩
    · rintro ⟨h1, h2⟩; exact ⟨h1, by omega⟩
  | cons s ss ih =>
    have hle := h.le
    have hbs := hb s (by simp)
    have hsn := hn s (by simp)
    simp only [placesFrom, List.mem_append, List.mem_range'_1]
    rw [ih h.tail (fun t ht => hn t (by simp [ht])) hle]
    by_cases h1 : i < s
    · have : moveTo (s :: ss) i = i := moveTo_of_lt (by
        intro t ht
        rcases List.mem_cons.1 ht with h' | h'
        · omega
        · have := hle t h'; omega)
      rw [this]; omega
    · by_cases h2 : i = s
      · subst h2; rw [moveTo_cons_self]; omega
      · by_cases h3 : i = s + 1
        · subst h3; rw [moveTo_cons_succ h]; omega
        · rw [moveTo_cons_ne h2 h3]; omega

theorem sorted_placesFrom {n : Nat} {ss : List Nat} (h : Gap ss) {b : Nat} (hb : ∀ s ∈ ss, b ≤ s) :
    (placesFrom n ss b).Pairwise (· < ·) ∧ ∀ i ∈ placesFrom n ss b, b ≤ i := by
  induction ss generalizing b with
  | nil =>
    refine ⟨List.pairwise_lt_range', ?_⟩
    intro i hi; exact (List.mem_range'_1.1 hi).1
  | cons s ss ih =>
    obtain ⟨h1, h2⟩ := ih h.tail h.le
    have hbs := hb s (by simp)
    simp only [placesFrom]
    constructor
    · rw [List.pairwise_append]
      refine ⟨List.pairwise_lt_range', h1, ?_⟩
      intro x hx y hy
      have := h2 y hy; have := List.mem_range'_1.1 hx; omega
    · intro i hi
      rcases List.mem_append.1 hi with h' | h'
      · exact (List.mem_range'_1.1 h').1
      · have := h2 i h'
        omega

end Change
end Ringing
