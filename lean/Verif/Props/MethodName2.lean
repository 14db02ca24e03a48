import Verif.Props.MethodName
import Mathlib.Data.Nat.Digits.Lemmas
/-
C54: the names of methods.
-/
namespace Ringing
open Spec
open Method

theorem phrase_cons (w : List Char) (l : List (List Char)) :
    phrase (w :: l) = if w = [] then phrase l else if phrase l = [] then w else w ++ ' ' :: phrase l := by
  unfold phrase
  by_cases hw : w = []
  · simp [hw]
  · rw [if_neg hw, List.filter_cons_of_pos (by simpa using hw)]
    cases hf : l.filter (· ≠ []) with
    | nil => simp [List.intercalate]
    | cons x t =>
      have hx : x ≠ [] := by
        have : x ∈ l.filter (· ≠ []) := by rw [hf]; simp
        simpa using (List.mem_filter.1 this).2
      rw [if_neg]
      · simp [List.intercalate]
      · cases t <;> simp [List.intercalate, hx]

theorem phrase_nil : phrase [] = [] := rfl

theorem phrase_append_last (l : List (List Char)) {w : List Char} (hw : w ≠ []) :
    phrase (l ++ [w]) = (if phrase l = [] then w else phrase l ++ ' ' :: w) := by
  induction l with
  | nil => rw [List.nil_append, phrase_cons, if_neg hw, phrase_nil, if_pos rfl, if_pos rfl]
  | cons x t ih =>
    have hne : phrase (t ++ [w]) ≠ [] := by
      rw [ih]; split
      · exact hw
      · simp
    rw [List.cons_append, phrase_cons, phrase_cons x t, if_neg hne, ih]
    by_cases hx : x = []
    · simp only [if_pos hx]
    · simp only [if_neg hx]
      by_cases ht : phrase t = []
      · simp only [if_pos ht, if_neg hx]
      · simp only [if_neg ht]
        rw [if_neg (by simp)]
        simp

/-- C54: the name of a class is its words with single spaces between them, and reading the table behind its
end is the only way to fail. -/
theorem C54_classname (cl : Nat) (year : Int) :
    (cl % 16 ≤ 10 → classnameC cl year =
      .ok (phrase (classWords (decide (cl &&& 16 ≠ 0)) (decide (cl &&& 128 ≠ 0)) (cl % 16) year))) ∧
    (10 < cl % 16 → classnameC cl year = .ub) := by
  have h15 : cl &&& 15 = cl % 16 := by
    have := Nat.and_two_pow_sub_one_eq_mod cl 4
    simpa using this
  unfold classnameC M_DIFFERENTIAL M_LITTLE M_HYBRID classWords
  simp only [h15, decide_eq_true_eq]
  obtain ⟨c, hc⟩ : ∃ c, c = cl % 16 := ⟨_, rfl⟩
  rw [← hc]
  have hc16 : c < 16 := by omega
  clear hc h15
  by_cases d : cl &&& 16 ≠ 0 <;> by_cases l : cl &&& 128 ≠ 0 <;> by_cases y : year ≥ 2019 <;>
    simp only [d, l, y, if_true, if_false, true_and, false_and, not_true, ite_not] <;>
    clear d l y <;> revert c <;> decide

set_option synthInstance.maxHeartbeats 400000 in
set_option synthInstance.maxSize 2000 in
theorem class_key1 : ∀ c, c < 11 → ∀ c', c' < 11 → ∀ d l d' l' : Bool,
    phrase [if d = true then "Differential".toList else [], if l = true then "Little".toList else [],
        if c = 9 then [] else (classWord c).toList] =
      phrase [if d' = true then "Differential".toList else [], if l' = true then "Little".toList else [],
        if c' = 9 then [] else (classWord c').toList] →
    d = d' ∧ l = l' ∧ (c = c' ∨ (c ≤ 1 ∨ c = 9) ∧ (c' ≤ 1 ∨ c' = 9)) := by decide +kernel

set_option synthInstance.maxHeartbeats 400000 in
set_option synthInstance.maxSize 2000 in
theorem class_key2 : ∀ c, c < 11 → ∀ c', c' < 11 → ∀ d l d' l' : Bool,
    phrase [if d = true then "Differential".toList else [], if l = true then "Little".toList else [],
        (classWord c).toList] =
      phrase [if d' = true then "Differential".toList else [], if l' = true then "Little".toList else [],
        (classWord c').toList] →
    d = d' ∧ l = l' ∧ (c = c' ∨ c ≤ 1 ∧ c' ≤ 1) := by decide +kernel

/-- C54: the name of the class determines whether the method is differential or little, and the class, up to
the classes that have no name (principles, and hybrids from 2019 on). -/
theorem C54_class_injective {d l d' l' : Bool} {c c' : Nat} {year : Int} (hc : c ≤ 10) (hc' : c' ≤ 10)
    (h : phrase (classWords d l c year) = phrase (classWords d' l' c' year)) :
    d = d' ∧ l = l' ∧ (c = c' ∨ ((c ≤ 1 ∨ (c = 9 ∧ year ≥ 2019)) ∧ (c' ≤ 1 ∨ (c' = 9 ∧ year ≥ 2019)))) := by
  unfold classWords at h
  by_cases y : year ≥ 2019 <;> simp only [y, true_and, false_and, if_false] at h <;>
    simp only [y, and_true, and_false, or_false] <;> clear y
  · exact class_key1 c (by omega) c' (by omega) d l d' l' h
  · exact class_key2 c (by omega) c' (by omega) d l d' l' h

theorem decimal_eq {n : Nat} (h : n ≠ 0) : decimal n = Spec.digits n := by
  unfold decimal Spec.digits; rw [if_neg h]

theorem length_digits_le {n k : Nat} (h : n < 10 ^ k) : (Spec.digits n).length ≤ k := by
  unfold Spec.digits
  rw [List.length_reverse, List.length_map]
  exact (Nat.digits_length_le_iff (by omega) n).2 h

/-- C54: the names of the stages. -/
theorem C54_stage {n : Nat} (h : n < 10000000) : stagename n = stageWord n := by
  by_cases h1 : n < 23
  · clear h
    revert n
    decide +kernel
  · unfold stagename
    rw [if_neg (by omega)]
    have e : stageWord n = Spec.digits n := by
      unfold stageWord
      split <;> first | omega | rfl
    rw [e]
    unfold decimalInt
    rw [if_neg (by omega), Int.natAbs_natCast, decimal_eq (by omega)]
    exact List.take_of_length_le (length_digits_le (k := 7) (by omega))

theorem digits_digit {n : Nat} {c : Char} (h : c ∈ Spec.digits n) : c.isDigit = true := by
  unfold Spec.digits at h
  simp only [List.mem_reverse, List.mem_map] at h
  obtain ⟨a, ha, rfl⟩ := h
  have := Nat.digits_lt_base (by omega) ha
  clear ha
  revert a
  decide

theorem stageWord_inj {n n' : Nat} (h : stageWord n = stageWord n') : n = n' := by
  have big : ∀ n, 23 ≤ n → stageWord n = Spec.digits n := by
    intro n hn
    unfold stageWord
    split <;> first | omega | rfl
  have mix : ∀ n, n < 23 → stageWord n = Spec.digits n ∨ (stageWord n).head?.any (fun c => !c.isDigit) = true ∨ stageWord n = ['0'] := by
    decide +kernel
  have nz : ∀ n, n ≠ 0 → Spec.digits n ≠ ['0'] := by
    intro n hn e
    have h2 : Nat.digits 10 n ≠ [] := by simpa [Nat.digits_eq_nil_iff_eq_zero] using hn
    have h3 := Nat.getLast_digit_ne_zero 10 hn
    unfold Spec.digits at e
    have e' : (Nat.digits 10 n).map Nat.digitChar = ['0'] := by
      have := congrArg List.reverse e; simpa using this
    match hd : Nat.digits 10 n with
    | [] => exact h2 hd
    | [a] =>
      rw [hd] at e'
      simp only [List.map_cons, List.map_nil, List.cons.injEq, and_true] at e'
      have ha : a < 10 := Nat.digits_lt_base (b := 10) (m := n) (by omega) (by rw [hd]; simp)
      have : a ≠ 0 := by simpa [hd] using h3
      exact this (digitChar_inj a ha 0 (by omega) e')
    | a :: b :: t => rw [hd] at e'; simp at e'
  have small : ∀ n, n < 23 → ∀ n', n' < 23 → stageWord n = stageWord n' → n = n' := by decide +kernel
  have cross : ∀ n n', n < 23 → 23 ≤ n' → stageWord n ≠ stageWord n' := by
    intro n n' h1 h2 e
    rw [big n' h2] at e
    rcases mix n h1 with g | g | g
    · rw [g] at e; have := digits_inj e; omega
    · rw [e] at g
      obtain ⟨c, t, ht⟩ := List.exists_cons_of_ne_nil (digits_ne_nil (a := n') (by omega))
      have hc : c ∈ Spec.digits n' := by rw [ht]; simp
      rw [ht] at g
      simp [digits_digit hc] at g
    · rw [g] at e; exact nz n' (by omega) e.symm
  rcases Nat.lt_or_ge n 23 with a | a <;> rcases Nat.lt_or_ge n' 23 with b | b
  · exact small n a n' b h
  · exact absurd h (cross n n' a b)
  · exact absurd h.symm (cross n' n b a)
  · rw [big n a, big n' b] at h; exact digits_inj h

/-- C54: different stages have different names.  (Above seven digits the names are cut off.) -/
theorem C54_stage_injective : (∀ n n' : Nat, n < 10000000 → n' < 10000000 → stagename n = stagename n' → n = n') ∧
    stagename 10000000 = stagename 10000001 := by
  constructor
  · intro n n' h h' e
    rw [C54_stage h, C54_stage h'] at e
    exact stageWord_inj e
  · decide +kernel

theorem stageWord_ne (n : Nat) : stageWord n ≠ [] ∧ ' ' ∉ stageWord n := by
  by_cases h : n < 23
  · revert n; decide +kernel
  · have e : stageWord n = Spec.digits n := by
      unfold stageWord
      split <;> first | omega | rfl
    rw [e]
    refine ⟨digits_ne_nil (by omega), fun hc => ?_⟩
    have := digits_digit hc
    revert this
    decide

theorem classified_le {b : Nat} {css : List (List Nat)} {year : Int} {c : Nat} (h : Classified b css year c) : c ≤ 10 := by
  cases h with
  | dodging _ _ _ _ _ _ _ e => rw [e]; dsimp only; split_ifs <;> omega
  | _ => omega

open Classical in
/-- C54: the full name is the name, the words of the class (see C22) and the stage, with single spaces between
those that are not empty; Grandsire, Union and their relatives have no class. -/
theorem C54_fullname {m : Method} (hb : m.b ≤ 255) (hm : ∀ c ∈ m.ch, IsChange c.n c.swaps ∧ c.n = m.b)
    (name : List Char) (year : Int) (hb1 : m.b ≠ 1 ∨ year ≥ 2019) :
    ∃ d l c, Classified m.b (m.ch.map Change.swaps) year c ∧
      (d = true ↔ if year ≥ 2019 then UnequalCycles (m.ch.map Change.swaps) m.b else SeveralCycles (m.ch.map Change.swaps) m.b) ∧
      (l = true ↔ ∃ hb, FirstHunt (m.ch.map Change.swaps) m.b hb ∧ ∃ x, (x = 0 ∨ x + 1 = m.b) ∧
        ∀ k, k ≤ m.ch.length → follow ((m.ch.map Change.swaps).take k) hb ≠ x) ∧
      ∀ j, fullnameC (.ok j) name m year =
        .ok (phrase (name :: (if Classless name m.b then [] else classWords d l c year) ++ [stageWord m.b])) := by
  obtain ⟨v, v1, v2, v3, v4⟩ := C22_methclass hb hm year hb1
  refine ⟨decide (v &&& 16 ≠ 0), decide (v &&& 128 ≠ 0), v % 16, v2, by simpa using v3, by simpa using v4, ?_⟩
  intro j
  have hst : stagename (m.b : Int) = stageWord m.b := C54_stage (by omega)
  have hw := (stageWord_ne m.b).1
  unfold fullnameC
  rw [v1 j, Out.ok_bind]
  simp only [hst]
  rw [List.cons_append, phrase_cons]
  have hA : Classless name m.b ↔ ((name = "Grandsire".toList ∨ name = "Reverse Grandsire".toList ∨ name = "Double Grandsire".toList ∨
      name = "Little Grandsire".toList) ∨ (m.b > 5 ∧ (name = "Union".toList ∨ name = "Double Union".toList ∨ name = "Reverse Union".toList))) := by
    unfold Classless
    simp only [List.map_cons, List.map_nil, List.mem_cons, List.not_mem_nil, or_false]
  by_cases h1 : name = "Grandsire".toList ∨ name = "Reverse Grandsire".toList ∨ name = "Double Grandsire".toList ∨ name = "Little Grandsire".toList
  · rw [if_pos h1, Out.ok_bind, if_pos (hA.2 (Or.inl h1)), List.nil_append, phrase_cons, if_neg hw, phrase_nil, if_pos rfl, if_neg hw]
    by_cases hn : name = []
    · simp [hn]
    · simp [hn]
  · rw [if_neg h1]
    by_cases h2 : m.b > 5 ∧ (name = "Union".toList ∨ name = "Double Union".toList ∨ name = "Reverse Union".toList)
    · rw [if_pos h2, Out.ok_bind, if_pos (hA.2 (Or.inr h2)), List.nil_append, phrase_cons, if_neg hw, phrase_nil, if_pos rfl, if_neg hw]
      by_cases hn : name = []
      · simp [hn]
      · simp [hn]
    · have hC : ¬ Classless name m.b := by rw [hA]; rintro (h | h); exacts [h1 h, h2 h]
      rw [if_neg h2, if_neg hC, (C54_classname v year).1 (classified_le v2), Out.ok_bind, Out.ok_bind, phrase_append_last _ hw]
      obtain ⟨P, hP⟩ : ∃ P, P = phrase (classWords (decide (v &&& 16 ≠ 0)) (decide (v &&& 128 ≠ 0)) (v % 16) year) := ⟨_, rfl⟩
      rw [← hP]
      by_cases hn : name = [] <;> by_cases hp : P = [] <;> simp [hn, hp, hw]

theorem last_word {a b w w' : List Char} (h : ' ' ∉ w) (h' : ' ' ∉ w') (e : a ++ ' ' :: w = b ++ ' ' :: w') : w = w' := by
  have e2 := congrArg List.reverse e
  simp only [List.reverse_append, List.reverse_cons, List.append_assoc, List.singleton_append] at e2
  have key : ∀ (x y u v : List Char), ' ' ∉ x → ' ' ∉ y → x ++ ' ' :: u = y ++ ' ' :: v → x = y := by
    intro x
    induction x with
    | nil =>
      intro y u v _ hy e
      cases y with
      | nil => rfl
      | cons c t => simp only [List.nil_append, List.cons_append, List.cons.injEq] at e; exact absurd (by rw [← e.1]; simp) hy
    | cons c t ih =>
      intro y u v hx hy e
      cases y with
      | nil => simp only [List.nil_append, List.cons_append, List.cons.injEq] at e; exact absurd (by rw [e.1]; simp) hx
      | cons c' t' =>
        simp only [List.cons_append, List.cons.injEq] at e
        simp only [List.mem_cons, not_or] at hx hy
        rw [e.1, ih t' u v hx.2 hy.2 e.2]
  have := key _ _ _ _ (by simpa using h) (by simpa using h') e2
  exact List.reverse_injective this

/-- C54: two methods with the same full name are on the same number of bells. -/
theorem C54_fullname_stage {m m' : Method} (hb : m.b ≤ 255) (hm : ∀ c ∈ m.ch, IsChange c.n c.swaps ∧ c.n = m.b)
    (hb' : m'.b ≤ 255) (hm' : ∀ c ∈ m'.ch, IsChange c.n c.swaps ∧ c.n = m'.b)
    (name name' : List Char) (year year' : Int) (hb1 : m.b ≠ 1 ∨ year ≥ 2019) (hb1' : m'.b ≠ 1 ∨ year' ≥ 2019) (j j' : Nat)
    (h : fullnameC (.ok j) name m year = fullnameC (.ok j') name' m' year') : m.b = m'.b := by
  obtain ⟨d, l, c, -, -, -, e⟩ := C54_fullname hb hm name year hb1
  obtain ⟨d', l', c', -, -, -, e'⟩ := C54_fullname hb' hm' name' year' hb1'
  rw [e, e'] at h
  injection h with h
  rw [phrase_append_last _ (stageWord_ne _).1, phrase_append_last _ (stageWord_ne _).1] at h
  apply stageWord_inj
  have a := (stageWord_ne m.b).2
  have a' := (stageWord_ne m'.b).2
  generalize phrase (name :: _) = P at h
  generalize phrase (name' :: _) = P' at h
  split_ifs at h with h1 h2 h2
  · exact h
  · rw [h] at a; simp at a
  · rw [← h] at a'; simp at a'
  · exact last_word a a' h

/-- Plain Bob Minor. -/
def plainBobMinor : Method :=
  let x : Change := ⟨6, [0, 2, 4]⟩
  let y : Change := ⟨6, [1, 3]⟩
  ⟨6, [x, y, x, y, x, y, x, y, x, y, x, ⟨6, [2, 4]⟩]⟩

example : fullnameC (.ok 0) "Plain".toList plainBobMinor 2024 = .ok "Plain Bob Minor".toList := by decide +kernel
example : lhcodeC plainBobMinor = .ok ['a'] := by decide +kernel

example : HasCode plainBobMinor 1 1 true := by
  refine ⟨Or.inl rfl, le_rfl, by decide, by decide, ⟨[0, 2, 4, 1, 5, 3], [0, 2, 4, 1, 5, 3], by decide +kernel, by decide +kernel, fun i => rfl⟩, ⟨⟨6, [2, 4]⟩, rfl, ?_⟩⟩
  · intro i
    rcases Nat.lt_or_ge i 6 with h | h
    · have : i = 0 ∨ i = 1 ∨ i = 2 ∨ i = 3 ∨ i = 4 ∨ i = 5 := by omega
      unfold IsPlace PlaceMade
      rcases this with rfl | rfl | rfl | rfl | rfl | rfl <;> simp [plainBobMinor, moveTo]
    · unfold IsPlace
      have h1 : ¬ i < plainBobMinor.b := by show ¬ i < 6; omega
      simp [h1]

end Ringing
