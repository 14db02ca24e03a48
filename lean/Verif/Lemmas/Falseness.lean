import Verif.Model.Falseness
import Verif.Lemmas.Group
import Verif.Lemmas.Sign
import Verif.Props.Method
import Verif.Props.NamedRows

namespace Ringing
namespace Falseness
open Spec Row

theorem has_pow (flags k : Nat) : has flags (2 ^ k) = flags.testBit k := by
  unfold has Method.has
  have key : flags &&& 2 ^ k ≠ 0 ↔ flags.testBit k = true := by
    constructor
    · intro h
      by_contra hc
      apply h
      apply Nat.eq_of_testBit_eq
      intro i
      rw [Nat.testBit_and, Nat.testBit_two_pow, Nat.zero_testBit]
      by_cases hi : k = i
      · subst hi; simp at hc; simp [hc]
      · simp [hi]
    · intro h e
      have := congrArg (fun x => Nat.testBit x k) e
      simp [Nat.testBit_and, h] at this
  cases hb : flags.testBit k
  · rw [hb] at key; simp only [Bool.false_eq_true, iff_false] at key; exact decide_eq_false key
  · rw [hb] at key; simp only [iff_true] at key; exact decide_eq_true key

/-- What the flags require of an element of the table. -/
def Keep (flags : Nat) (f : Row) : Prop :=
  (flags.testBit 1 = true ∨ fn f 0 = 0) ∧ (flags.testBit 0 = true → sign f = 1) ∧
    (flags.testBit 3 = true → sign f = -1)

instance (flags : Nat) (f : Row) : Decidable (Keep flags f) := inferInstanceAs (Decidable (_ ∧ _ ∧ _))

theorem keepC_eq {flags : Nat} {f : Row} (hf : Valid f) (h0 : 0 < f.length) :
    keepC flags f = .ok (decide (Keep flags f)) := by
  unfold keepC NO_FIXED_TREBLE IN_COURSE_ONLY OUT_OF_COURSE_ONLY
  rw [show has flags 0x02 = flags.testBit 1 from has_pow flags 1,
    show has flags 0x01 = flags.testBit 0 from has_pow flags 0,
    show has flags 0x08 = flags.testBit 3 from has_pow flags 3, signC_eq hf]
  have e : vget f 0 = .ok (fn f 0) := by
    unfold vget fn; rw [List.getElem?_eq_getElem h0, List.getD_eq_getElem?_getD, List.getElem?_eq_getElem h0]
    rfl
  rw [e]
  rcases sign_sq hf with hs | hs <;>
    cases h1 : flags.testBit 1 <;> cases h0 : flags.testBit 0 <;> cases h3 : flags.testBit 3 <;>
    by_cases h : fn f 0 = 0 <;> simp [h, Keep, hs, h1, h0, h3]

theorem innerC_spec {flags n : Nat} (hn : 0 < n) {a : Row} (ha : Valid a ∧ a.length = n) :
    ∀ (bs : List Row) (fs : List Row), (∀ b ∈ bs, Valid b ∧ b.length = n) → Group.Incr Row.lt fs →
    ∃ fs', innerC flags a bs fs = .ok fs' ∧ Group.Incr Row.lt fs' ∧
      ∀ x, x ∈ fs' ↔ x ∈ fs ∨ ∃ b ∈ bs, x = Row.div a b ∧ Keep flags x
  | [], fs, _, hi => ⟨fs, rfl, hi, by simp⟩
  | b :: bs, fs, hb, hi => by
    have hvb := (hb b (by simp)).1
    have hlb := (hb b (by simp)).2
    have hv := valid_div ha.1 hvb
    have hl : (Row.div a b).length = n := by simp [Row.div, ha.2, hlb]
    rw [innerC, divC_eq ha.1 hvb, Out.ok_bind, keepC_eq hv (by omega), Out.ok_bind]
    have hi' : Group.Incr Row.lt (if decide (Keep flags (Row.div a b)) then
        (Group.setInsert Row.lt (Row.div a b) fs).1 else fs) := by
      split
      · exact Group.setInsert_incr Group.rowSTO _ hi
      · exact hi
    obtain ⟨fs', h1, h2, h3⟩ := innerC_spec hn ha bs _ (fun b hb' => hb b (by simp [hb'])) hi'
    refine ⟨fs', h1, h2, fun x => ?_⟩
    rw [h3]
    by_cases hk : Keep flags (Row.div a b)
    · simp only [decide_eq_true hk, if_true, Group.mem_setInsert Group.rowSTO, List.mem_cons,
        exists_eq_or_imp]
      constructor
      · rintro ((h | h) | h)
        · subst h; exact Or.inr (Or.inl ⟨rfl, hk⟩)
        · exact Or.inl h
        · exact Or.inr (Or.inr h)
      · rintro (h | h | h)
        · exact Or.inl (Or.inr h)
        · exact Or.inl (Or.inl h.1)
        · exact Or.inr h
    · simp only [decide_eq_false hk, List.mem_cons, exists_eq_or_imp]
      constructor
      · rintro (h | h)
        · exact Or.inl h
        · exact Or.inr (Or.inr h)
      · rintro (h | h | h)
        · exact Or.inl h
        · rw [h.1] at h; exact absurd h.2 hk
        · exact Or.inr h

theorem outerC_spec {flags n : Nat} (hn : 0 < n) {m2 : List Row} (h2 : ∀ b ∈ m2, Valid b ∧ b.length = n) :
    ∀ (as : List Row) (fs : List Row), (∀ a ∈ as, Valid a ∧ a.length = n) → Group.Incr Row.lt fs →
    ∃ fs', outerC flags m2 as fs = .ok fs' ∧ Group.Incr Row.lt fs' ∧
      ∀ x, x ∈ fs' ↔ x ∈ fs ∨ ∃ a ∈ as, ∃ b ∈ m2, x = Row.div a b ∧ Keep flags x
  | [], fs, _, hi => ⟨fs, rfl, hi, by simp⟩
  | a :: as, fs, ha, hi => by
    obtain ⟨f1, e1, e2, e3⟩ := innerC_spec (flags := flags) hn (ha a (by simp)) m2 fs h2 hi
    obtain ⟨f2, g1, g2, g3⟩ := outerC_spec hn h2 as f1 (fun a ha' => ha a (by simp [ha'])) e2
    refine ⟨f2, by rw [outerC, e1, Out.ok_bind, g1], g2, fun x => ?_⟩
    rw [g3, e3]
    simp only [List.mem_cons, exists_eq_or_imp, or_assoc]

theorem part_eq (flags : Nat) (m : List Row) :
    part flags m = m.take (if flags.testBit 2 then m.length / 2 else m.length) := by
  unfold part HALF_LEAD_ONLY
  rw [show (0x04 : Nat) = 2 ^ 2 from rfl, has_pow]
  split <;> simp

theorem initC_spec {flags n : Nat} (hn : 0 < n) {m1 m2 : List Row} (h1 : ∀ a ∈ m1, Valid a ∧ a.length = n)
    (h2 : ∀ b ∈ m2, Valid b ∧ b.length = n) :
    ∃ t, initC flags m1 m2 = .ok t ∧ Group.Incr Row.lt t ∧
      ∀ x, x ∈ t ↔ ∃ a ∈ part flags m1, ∃ b ∈ part flags m2, x = Row.div a b ∧ Keep flags x := by
  have hp : ∀ {m : List Row}, (∀ a ∈ m, Valid a ∧ a.length = n) → ∀ a ∈ part flags m, Valid a ∧ a.length = n := by
    intro m h a ha; rw [part_eq] at ha; exact h a (List.mem_of_mem_take ha)
  obtain ⟨t, e1, e2, e3⟩ := outerC_spec (flags := flags) hn (hp h2) (part flags m1) [] (hp h1)
    (by simp [Group.Incr])
  exact ⟨t, e1, e2, fun x => by rw [e3]; simp⟩

theorem eq_div_iff {a b f : Row} (hb : Valid b) (hl : a.length = b.length) :
    f = Row.div a b ↔ f.length = a.length ∧ ∀ i, fn f (fn b i) = fn a i := by
  constructor
  · rintro rfl
    exact ⟨by simp [Row.div, hl], fun i => by rw [fn_div hb, hb.find_fn]⟩
  · rintro ⟨h1, h2⟩
    refine ext_fn (by simp [Row.div, h1, hl]) ?_
    intro i _
    rw [fn_div hb, ← h2, hb.fn_find]

end Falseness
end Ringing
