import Verif.Lemmas.WildcardRun
import Mathlib.Data.Set.Card
import Mathlib.Data.Nat.Factorial.Basic
/-! C43: `row_wildcard::count`. -/
namespace Ringing
open Spec

/-- C43: the constructor of `row_wildcard` accepts just the patterns made of bells, `?`, `*` and sets, and if
a number of bells is given, those that name only bells in range; anything else throws. -/
theorem C43_valid (s : List Char) (h0 : '\x00' ∉ s) (b : Nat) :
    (∀ w, Wildcard.newC s b = .ok w ↔ w = ⟨s, b⟩ ∧ ∃ p, Spells p s ∧ (b = 0 ∨ ∀ x ∈ named p, x < b)) ∧
    ((¬ ∃ p, Spells p s ∧ (b = 0 ∨ ∀ x ∈ named p, x < b)) → Wildcard.newC s b = .throw .invalidArgument) := by
  have h2 := checkLoop_spec s h0
  by_cases h : ∃ p, Spells p s
  · obtain ⟨p, hp⟩ := h
    have e1 : Wildcard.newC s b = Wildcard.setBellsC ⟨s, b⟩ b := by
      rw [Wildcard.newC, Wildcard.checkExpression, h2.1.1.2 ⟨p, hp⟩, Out.ok_bind]
    have e2 : Wildcard.setBellsC ⟨s, b⟩ b = if b = 0 ∨ ∀ x ∈ named p, x < b then .ok ⟨s, b⟩ else .throw .invalidArgument := by
      rw [Wildcard.setBellsC]
      by_cases hb : b = 0
      · simp [hb]
      · rw [if_neg hb, bellsLoop_spec hp]
        by_cases hx : ∀ x ∈ named p, x < b
        · rw [if_pos hx, if_pos (Or.inr hx)]; rfl
        · have : ¬ (b = 0 ∨ ∀ x ∈ named p, x < b) := by simp only [hb, false_or]; exact hx
          rw [if_neg hx, if_neg this]; rfl
    have huniq : (∃ q, Spells q s ∧ (b = 0 ∨ ∀ x ∈ named q, x < b)) ↔ (b = 0 ∨ ∀ x ∈ named p, x < b) := by
      constructor
      · rintro ⟨q, hq, hx⟩
        rcases hx with hx | hx
        · exact Or.inl hx
        · have e3 := bellsLoop_spec hq b
          rw [if_pos hx, bellsLoop_spec hp b] at e3
          by_contra hc
          rw [if_neg (fun h => hc (Or.inr h))] at e3
          cases e3
      · intro h; exact ⟨p, hp, h⟩
    rw [huniq, e1, e2]
    refine ⟨fun w => ?_, fun h => by rw [if_neg h]⟩
    by_cases hc : b = 0 ∨ ∀ x ∈ named p, x < b
    · rw [if_pos hc]
      exact ⟨fun e => ⟨by injection e with e; exact e.symm, hc⟩, fun e => by rw [e.1]⟩
    · rw [if_neg hc]
      exact ⟨fun e => (by cases e), fun e => absurd e.2 hc⟩
  · have hno : ¬ ∃ p, Spells p s ∧ (b = 0 ∨ ∀ x ∈ named p, x < b) := fun ⟨p, hp, _⟩ => h ⟨p, hp⟩
    have e : Wildcard.newC s b = .throw .invalidArgument := by
      rcases h2.2 false with e | e
      · exact absurd (h2.1.1.1 e) h
      · rw [Wildcard.newC, Wildcard.checkExpression, e]; rfl
    refine ⟨fun w => ⟨fun e' => ?_, fun e' => absurd e'.2 hno⟩, fun _ => e⟩
    rw [e] at e'; cases e'

theorem meas_le (b : Nat) (p : List Tok) : meas b [] p ≤ (p.length + 1) * (b + 3) := by
  have h : (p.map (wt b)).sum ≤ p.length * (b + 3) := by
    induction p with
    | nil => simp
    | cons t p ih =>
      rw [List.map_cons, List.sum_cons, List.length_cons, Nat.add_mul]
      have : wt b t ≤ b + 3 := by cases t <;> simp [wt]
      omega
  have h2 : (if Tok.star ∈ p ∨ b ≤ ones ([] ++ p) then 0 else b + 3) ≤ b + 3 := by split <;> omega
  rw [Nat.add_mul]
  unfold meas
  rw [Nat.one_mul]
  refine Nat.add_le_add h ?_
  convert h2

theorem described_ncard (b : Nat) (p : List Tok) : (described b p).ncard = (rowsOf b (full p)).card := by
  have : described b p = (rowsOf b (full p) : Set (List Nat)) := by
    ext r; simp only [described, Set.mem_ofPred_eq, Finset.mem_coe, mem_rowsOf]
  rw [this, Set.ncard_coe_finset]

/-- C43: `count( b )` ends, and it is, up to the width of the result, the number of rows on `b` bells that the
pattern describes.  The pattern names only bells in range, each at most once outside sets; no such bell is in a
set before it; there is such a bell between any two separated stars; and the pattern is not longer than the row. -/
theorem C43_count {b : Nat} (hb0 : 0 < b) (hb : b < 2 ^ 32) {p : List Tok} (hn : ∀ x ∈ named p, x < b ∧ x < 33) (hf : (fixed p).Nodup)
    (hl : Later p) (ha : Anchored p) (ho : ones p ≤ b) {fuel : Nat} (hfuel : (p.length + 1) * (b + 3) < fuel) (b' : Nat) :
    Wildcard.countC ⟨text p, b'⟩ b fuel = .ok ((described b p).ncard % 2 ^ 64) ∧
    Wildcard.countC ⟨text p, b⟩ 0 fuel = .ok ((described b p).ncard % 2 ^ 64) := by
  have hm := meas_le b p
  obtain ⟨V, h1, h2⟩ := possible_spec hb fuel [] p (by omega) (fun t h => by simp at h) (fun x h => ⟨(hn x h).2, (hn x h).1⟩) hf hl ha ho
  simp only [List.nil_append, List.count_nil, Nat.factorial_zero, Nat.mul_one, text, List.length_nil] at h1 h2
  rw [← described_ncard] at h2
  rw [h2]
  constructor
  · rw [Wildcard.countC, if_neg (by omega : ¬ b = 0)]
    simp only [if_neg (by omega : ¬ b = 0)]
    exact h1
  · rw [Wildcard.countC, if_pos rfl]
    simp only [if_neg (by omega : ¬ b = 0)]
    exact h1

/-- C43: up to twenty bells the number is exact. -/
theorem C43_exact {b : Nat} (hb0 : 0 < b) (hb : b ≤ 20) {p : List Tok} (hn : ∀ x ∈ named p, x < b) (hf : (fixed p).Nodup)
    (hl : Later p) (ha : Anchored p) (ho : ones p ≤ b) {fuel : Nat} (hfuel : (p.length + 1) * (b + 3) < fuel) (b' : Nat) :
    Wildcard.countC ⟨text p, b'⟩ b fuel = .ok (described b p).ncard := by
  rw [(C43_count hb0 (by omega) (fun x h => ⟨hn x h, by have := hn x h; omega⟩) hf hl ha ho hfuel b').1]
  congr 1
  apply Nat.mod_eq_of_lt
  have h1 : (described b p).ncard ≤ b.factorial := by
    rw [described_ncard]
    refine (Finset.card_le_card (t := (List.range b).permutations.toFinset) fun r hr => ?_).trans ?_
    · rw [List.mem_toFinset, List.mem_permutations]; exact (mem_rowsOf.1 hr).1
    · refine (List.toFinset_card_le _).trans ?_
      rw [List.length_permutations, List.length_range]
  have h2 : b.factorial ≤ Nat.factorial 20 := Nat.factorial_le hb
  have h3 : Nat.factorial 20 < 2 ^ 64 := by decide
  omega

/-- C43: without a number of bells there is no count. -/
theorem C43_unset (s : List Char) (fuel : Nat) : Wildcard.countC ⟨s, 0⟩ 0 fuel = .throw .invalidArgument := rfl

/-- Non-vacuity: a pattern with sets, question marks and several stars meets the conditions. -/
example : ∃ p, text p = "?1[34]**5[56]*".toList ∧ (∀ x ∈ named p, x < 8) ∧ (fixed p).Nodup ∧ Later p ∧ Anchored p ∧ ones p ≤ 8 := by
  refine ⟨[.any, .bell 0, .set [2, 3], .star, .star, .bell 4, .set [4, 5], .star], by decide, by decide, by decide, ?_, ?_, by decide⟩
  · unfold Later
    simp only [List.pairwise_cons]
    refine ⟨?_, ?_, ?_, ?_, ?_, ?_, ?_, ?_, List.Pairwise.nil⟩
    all_goals
      intro u hu l x e1 e2
      cases e1
      try subst e2
      try simp at hu
      try subst hu
      try decide
  · intro y hy hst
    simp only [List.suffix_cons_iff] at hy
    rcases hy with h | h | h | h | h | h | h | h | h <;> (try (injection h with h _; cases h; done)) <;> (try (injection h with _ h; subst h))
    · exact Or.inl rfl
    · exact Or.inr ⟨[], 4, _, rfl, by simp⟩
    · simp at hst
    · simp at h

/-- The count of a pattern on some bells. -/
def countOf (s : String) (b : Nat) : Out Nat := Wildcard.countC ⟨s.toList, b⟩ b 60

/-- C43: the examples of the comments. -/
theorem C43_documented : countOf "[12][23][34][14]" 4 = .ok 2 ∧ countOf "*[35]*" 5 = .ok 120 ∧ countOf "*5*3*1*" 5 = .ok 20 ∧
    countOf "[55]*" 5 = .ok 24 ∧ countOf "[5][5]*" 5 = .ok 0 := by decide +kernel

theorem described_eq (b : Nat) (p : List Tok) :
    (described b p).ncard = ((List.range b).permutations'.filter fun r => readings (full p) r ≠ []).length := by
  have : described b p = ((((List.range b).permutations'.filter fun r => readings (full p) r ≠ []).toFinset : Finset (List Nat)) : Set (List Nat)) := by
    ext r
    simp only [described, Set.mem_ofPred_eq, Finset.mem_coe, List.mem_toFinset, List.mem_filter, List.mem_permutations', decide_eq_true_eq,
      readings_ne_nil]
  rw [this, Set.ncard_coe_finset, List.toFinset_card_of_nodup]
  exact List.Nodup.filter _ ((List.permutations_perm_permutations' _).nodup_iff.1 (List.nodup_permutations _ List.nodup_range))

/-- C43: what happens if a bell is named twice outside sets, or in a set before it stands for itself: rows that
do not exist are counted. -/
theorem C43_named_twice : (countOf "11*" 4 = .ok 2 ∧ (described 4 [.bell 0, .bell 0, .star]).ncard = 0) ∧
    (countOf "[12]1" 4 = .ok 4 ∧ (described 4 [.set [0, 1], .bell 0]).ncard = 2) := by
  simp only [described_eq]
  decide +kernel

/-- C43: what happens if there are only sets or question marks between two stars: the rows that match in two
ways are taken off once for each pair of ways, and the number can be too small, even below zero. -/
theorem C43_unanchored : (countOf "*[345]*" 5 = .ok 0 ∧ (described 5 [.star, .set [2, 3, 4], .star]).ncard = 120) ∧
    (countOf "*?*" 5 = .ok (2 ^ 64 - 600) ∧ (described 5 [.star, .any, .star]).ncard = 120) := by
  simp only [described_eq]
  decide +kernel

/-- C43: two sets between two stars can make `count` throw although the pattern is valid. -/
theorem C43_throws : Wildcard.newC "*[21][23]*".toList 5 = .ok ⟨"*[21][23]*".toList, 5⟩ ∧ countOf "*[21][23]*" 5 = .throw .invalidArgument ∧
    0 < (described 5 [.star, .set [1, 0], .set [1, 2], .star]).ncard := by
  simp only [described_eq]
  decide +kernel

/-- C43: a pattern that is longer than the row still has a count; so has one that names bells that are not
there, if the number of bells is given only to `count`. -/
theorem C43_too_long : (countOf "?????" 4 = .ok 120 ∧ (described 4 [.any, .any, .any, .any, .any]).ncard = 0) ∧
    (Wildcard.newC "9".toList 0 = .ok ⟨"9".toList, 0⟩ ∧ Wildcard.countC ⟨"9".toList, 0⟩ 4 60 = .ok 6 ∧ (described 4 [.bell 8]).ncard = 0) := by
  simp only [described_eq]
  decide +kernel

/-- C43: a bell written in both cases in a set is counted twice. -/
theorem C43_both_cases : countOf "[Ee]*" 11 = .ok (2 * 3628800) ∧ (described 11 [.set [10, 10], .star]).ncard = 3628800 := by
  refine ⟨by decide +kernel, ?_⟩
  have h := (C43_exact (b := 11) (by decide) (by decide) (p := [.set [10, 10], .star]) (by decide) (by decide) ?_ ?_ (by decide)
    (fuel := 60) (by decide) 11)
  · have e : Wildcard.countC ⟨text [.set [10, 10], .star], 11⟩ 11 60 = .ok 3628800 := by decide +kernel
    rw [e] at h
    injection h with h
    exact h.symm
  · simp [Later]
  · intro y hy hst
    simp only [List.suffix_cons_iff] at hy
    rcases hy with h | h | h
    · injection h with h _; cases h
    · injection h with _ h; subst h; simp at hst
    · simp at h

end Ringing
