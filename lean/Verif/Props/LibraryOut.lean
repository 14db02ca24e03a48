import Verif.Props.Library
import Mathlib.Data.Nat.Digits.Lemmas

/-! C61: methods written with `method_stream` and read with `litelib`. -/
namespace Ringing.Lib
open Spec

theorem digitChar_val : ∀ d, d < 10 → (Nat.digitChar d).toNat - '0'.toNat = d := by decide
theorem digitChar_digit : ∀ d, d < 10 → '0' ≤ Nat.digitChar d ∧ Nat.digitChar d ≤ '9' := by decide

theorem decimal_spec (n : Nat) : number (decimal n) = n ∧ decimal n ≠ [] ∧ ∀ c ∈ decimal n, Digit c := by
  unfold decimal
  by_cases h : n = 0
  · subst h
    refine ⟨by decide, by decide, ?_⟩
    intro c hc
    simp only [if_true, List.mem_singleton] at hc
    subst hc; unfold Digit; decide
  · rw [if_neg h]
    refine ⟨?_, ?_, ?_⟩
    · unfold number
      rw [List.reverse_reverse, List.map_map]
      have : (Nat.digits 10 n).map ((fun c => c.toNat - '0'.toNat) ∘ Nat.digitChar) = Nat.digits 10 n := by
        conv_rhs => rw [← List.map_id (Nat.digits 10 n)]
        apply List.map_congr_left
        intro d hd
        exact digitChar_val d (Nat.digits_lt_base (by decide) hd)
      rw [this, Nat.ofDigits_digits]
    · have := Nat.digits_ne_nil_iff_ne_zero (b := 10).2 h
      simpa using this
    · intro c hc
      simp only [List.mem_reverse, List.mem_map] at hc
      obtain ⟨d, hd, rfl⟩ := hc
      exact digitChar_digit d (Nat.digits_lt_base (by decide) hd)

theorem decimalInt_spec {b : Int} (h1 : -2 ^ 31 ≤ b) (h2 : b < 2 ^ 31) : IsInt (decimalInt b) b := by
  obtain ⟨d1, d2, d3⟩ := decimal_spec b.natAbs
  unfold decimalInt
  by_cases h : b < 0
  · rw [if_pos h]
    refine ⟨[], ['-'], decimal b.natAbs, [], by simp, by simp, by simp, d2, d3, Or.inr (Or.inr ⟨rfl, ?_⟩), h1, h2⟩
    rw [d1]; omega
  · rw [if_neg h]
    refine ⟨[], [], decimal b.natAbs, [], by simp, by simp, by simp, d2, d3, Or.inl ⟨rfl, ?_⟩, h1, h2⟩
    rw [d1]; omega

theorem digit_plain {c : Char} (h : Digit c) : ¬ Blank c ∧ ¬ Spec.Gap c ∧ c ≠ ':' := by
  refine ⟨?_, ?_, ?_⟩
  · rintro (rfl | rfl | rfl | rfl) <;> revert h <;> unfold Digit <;> decide
  · rintro (rfl | rfl) <;> revert h <;> unfold Digit <;> decide
  · rintro rfl; revert h; unfold Digit; decide

theorem decimalInt_plain (b : Int) : (∀ c ∈ decimalInt b, ¬ Blank c ∧ ¬ Spec.Gap c ∧ c ≠ ':') ∧ decimalInt b ≠ [] := by
  obtain ⟨-, d2, d3⟩ := decimal_spec b.natAbs
  unfold decimalInt
  split
  · refine ⟨?_, by simp⟩
    intro c hc
    rcases List.mem_cons.1 hc with rfl | hc
    · unfold Blank Spec.Gap; decide
    · exact digit_plain (d3 c hc)
  · exact ⟨fun c hc => digit_plain (d3 c hc), d2⟩

/-- The text that is written behind the place notation. -/
def WritesText (past : Out Nat) (form : NameForm) (v : View) (text : Str) : Prop :=
  match form with
  | .none => text = []
  | .payload => v.payload = some text ∨ (v.payload = none ∧ text = [])
  | .payloadOrName => v.payload = some text ∨ (v.payload = none ∧ v.name = .ok text)
  | .name => v.name = .ok text
  | .fullTitle => ∃ m, v.meth = .ok m ∧ Method.fullnameC past m.name m.m 9999 = .ok text

/-- The entry has the number of bells, the place notation and the text. -/
def Writes (past : Out Nat) (form : NameForm) (v : View) (x : Int × Str × Str) : Prop :=
  v.bells = x.1 ∧ v.pn = .ok x.2.1 ∧ WritesText past form v x.2.2

/-- The place notation is one word and the text is one line without blanks at its ends.  Without the number of
bells in front, the place notation must not be empty and have no colon. -/
def Storable (incBells : Bool) (x : Int × Str × Str) : Prop :=
  (∀ c ∈ x.2.1, ¬ Blank c) ∧ Trimmed x.2.2 x.2.2 ∧ '\n' ∉ x.2.2 ∧
    (if incBells then x.1 ≠ 0 ∧ -2 ^ 31 ≤ x.1 ∧ x.1 < 2 ^ 31 else x.2.1 ≠ [] ∧ ':' ∉ x.2.1)

/-- The line for an entry. -/
def lineOf (incBells : Bool) (form : NameForm) (x : Int × Str × Str) : Str :=
  (if incBells then decimalInt x.1 ++ [':'] else []) ++ x.2.1 ++ (if form = .none then [] else ['\t']) ++ x.2.2

theorem append_spec {past : Out Nat} {inc : Bool} {form : NameForm} {v : View} {x : Int × Str × Str} (h : Writes past form v x) :
    append past inc form v = .ok (lineOf inc form x ++ ['\n']) := by
  obtain ⟨h1, h2, h3⟩ := h
  unfold append lineOf
  rw [h2, Out.ok_bind, h1]
  cases form with
  | none => have h3 : x.2.2 = [] := h3; simp [h3]
  | payloadOrName =>
    rcases h3 with h3 | ⟨h3, h4⟩
    · simp [h3]
    · simp [h3, h4]
  | payload =>
    rcases h3 with h3 | ⟨h3, h4⟩
    · simp [h3]
    · simp [h3, h4]
  | name => have h3 : v.name = .ok x.2.2 := h3; simp [h3]
  | fullTitle => obtain ⟨m, h3, h4⟩ := h3; simp [h3, h4]

theorem trimmed_blank_cons {c : Char} {t : Str} (hc : Blank c) (h : Trimmed t t) : Trimmed (c :: t) t := by
  obtain ⟨a, b, -, -, -, h1, h2⟩ := h
  exact ⟨[c], [], by simp, by simpa using hc, by simp, h1, h2⟩

/-- The part of the line behind the place notation. -/
theorem rest_spec {inc : Bool} {form : NameForm} {x : Int × Str × Str} {past : Out Nat} {v : View} (hw : Writes past form v x) (h : Storable inc x) :
    ∃ rest, rest = (if form = .none then [] else ['\t']) ++ x.2.2 ∧ Trimmed rest x.2.2 ∧ (∀ c, rest.head? = some c → Blank c) := by
  refine ⟨_, rfl, ?_⟩
  by_cases hf : form = .none
  · subst hf
    have : x.2.2 = [] := hw.2.2
    rw [this]
    exact ⟨⟨[], [], by simp, by simp, by simp, by simp, by simp⟩, by simp⟩
  · rw [if_neg hf]
    exact ⟨trimmed_blank_cons (by unfold Blank; decide) h.2.1, by intro c hc; simp at hc; subst hc; unfold Blank; decide⟩

theorem lineOf_line {inc : Bool} {form : NameForm} {x : Int × Str × Str} {past : Out Nat} {v : View} (hw : Writes past form v x) (h : Storable inc x) :
    LiteLine (lineOf inc form x) (if inc then some x.1 else none) x.2.1 x.2.2 ∧ '\n' ∉ lineOf inc form x := by
  obtain ⟨rest, hr, ht, hb⟩ := rest_spec hw h
  obtain ⟨h1, h2, h3, h4⟩ := h
  have nl : ∀ c, ¬ Blank c → c ≠ '\n' := by rintro c hc rfl; exact hc (by unfold Blank; decide)
  have hnr : '\n' ∉ rest := by
    rw [hr]; split <;> simp [h3]
  cases inc with
  | true =>
    simp only [if_true] at h4 ⊢
    obtain ⟨d1, d2⟩ := decimalInt_plain x.1
    have e : lineOf true form x = [] ++ (decimalInt x.1 ++ ':' :: x.2.1) ++ rest := by simp [lineOf, hr]
    have hword : ∀ c ∈ decimalInt x.1 ++ ':' :: x.2.1, ¬ Blank c := by
      intro c hc
      simp only [List.mem_append, List.mem_cons] at hc
      rcases hc with hc | rfl | hc
      · exact (d1 c hc).1
      · unfold Blank; decide
      · exact h1 c hc
    constructor
    · refine ⟨_, rest, ⟨[], e, by simp, hword, ?_, hb⟩, ht, Or.inr ⟨decimalInt x.1, x.1, rfl, rfl, fun hc => (d1 _ hc).2.2 rfl, decimalInt_spec h4.2.1 h4.2.2⟩⟩
      obtain ⟨c, t, hct⟩ := List.exists_cons_of_ne_nil d2
      exact ⟨c, by rw [hct]; rfl, (d1 c (by rw [hct]; simp)).2.1⟩
    · rw [e]
      simp only [List.nil_append, List.mem_append, not_or]
      exact ⟨⟨fun hc => nl _ (d1 _ hc).1 rfl, fun hc => nl _ (hword _ (by simp only [List.mem_append]; exact Or.inr hc)) rfl⟩, hnr⟩
  | false =>
    simp only [Bool.false_eq_true, if_false] at h4 ⊢
    have e : lineOf false form x = [] ++ x.2.1 ++ rest := by simp [lineOf, hr]
    constructor
    · refine ⟨_, rest, ⟨[], e, by simp, h1, ?_, hb⟩, ht, Or.inl ⟨rfl, h4.2, rfl⟩⟩
      obtain ⟨c, t, hct⟩ := List.exists_cons_of_ne_nil h4.1
      refine ⟨c, by rw [hct]; rfl, fun hg => h1 c (by rw [hct]; simp) ?_⟩
      rcases hg with rfl | rfl <;> unfold Blank <;> decide
    · rw [e]
      simp only [List.nil_append, List.mem_append, not_or]
      exact ⟨fun hc => nl _ (h1 _ hc) rfl, hnr⟩

theorem appendAll_spec {past : Out Nat} {inc : Bool} {form : NameForm} {vs : List View} {xs : List (Int × Str × Str)}
    (h : List.Forall₂ (Writes past form) vs xs) (hs : ∀ x ∈ xs, Storable inc x) :
    ∃ t, appendAll past inc form vs = .ok t ∧ Lines t (xs.map (lineOf inc form)) := by
  induction h with
  | nil => exact ⟨[], rfl, .nil⟩
  | @cons v x vs xs h1 h2 ih =>
    obtain ⟨t, e1, e2⟩ := ih (fun y hy => hs y (by simp [hy]))
    refine ⟨lineOf inc form x ++ '\n' :: t, ?_, .cons (lineOf_line h1 (hs x (by simp))).2 e2⟩
    rw [appendAll, append_spec h1, Out.ok_bind, e1, Out.ok_bind]
    simp

/-- C61: entries written with the number of bells are read back by a library for any number of bells, in the same
order and with the same number of bells, place notation and text; a library for one number of bells gives those
with that number. -/
theorem C61_bells {past : Out Nat} {form : NameForm} {vs : List View} {xs : List (Int × Str × Str)}
    (h : List.Forall₂ (Writes past form) vs xs) (hs : ∀ x ∈ xs, Storable true x) :
    ∃ t, appendAll past true form vs = .ok t ∧ ∀ req fl l, ReadsText l req t fl → ∀ n, xs.length < n →
      ∃ vs' l', list lite n l = .ok (vs', l') ∧ List.Forall₂ (Shows fl) vs' (if req = 0 then xs else xs.filter (·.1 = req)) := by
  obtain ⟨t, e1, e2⟩ := appendAll_spec h hs
  refine ⟨t, e1, fun req fl l hl n hn => ?_⟩
  have key : LiteEntries req (xs.map (lineOf true form)) (if req = 0 then xs else xs.filter (·.1 = req)) := by
    clear hn e1 e2
    induction h with
    | nil => simp; exact .nil
    | @cons v x vs xs h1 h2 ih =>
      have ih := ih (fun y hy => hs y (by simp [hy]))
      have hx := hs x (by simp)
      have hl := (lineOf_line h1 hx).1
      simp only [if_true] at hl
      have h4 := hx.2.2.2
      simp only [if_true] at h4
      rw [List.map_cons]
      by_cases hr : req = 0
      · rw [if_pos hr] at ih ⊢
        exact .entry hl (Or.inl ⟨hr, rfl, h4.1⟩) ih
      · rw [if_neg hr] at ih ⊢
        by_cases hb : x.1 = req
        · rw [List.filter_cons_of_pos (by simpa using hb)]
          exact .entry hl (Or.inr ⟨hr, hb, Or.inr (Or.inl (by rw [hb]))⟩) ih
        · rw [List.filter_cons_of_neg (by simpa using hb)]
          refine .other hl ?_ ih
          intro b hw
          rcases hw with ⟨h, -⟩ | ⟨-, -, h | h | h⟩
          · exact hr h
          · cases h
          · exact hb (by simpa using h)
          · exact h4.1 (by simpa using h)
  refine C60_entries hl e2 key (lt_of_le_of_lt ?_ hn)
  split
  · exact le_rfl
  · exact List.length_filter_le _ _

/-- C61: entries written without the number of bells are read back by a library for a number of bells. -/
theorem C61_no_bells {past : Out Nat} {form : NameForm} {vs : List View} {xs : List (Int × Str × Str)}
    (h : List.Forall₂ (Writes past form) vs xs) (hs : ∀ x ∈ xs, Storable false x) {req : Int} (hr : req ≠ 0) (hx : ∀ x ∈ xs, x.1 = req) :
    ∃ t, appendAll past false form vs = .ok t ∧ ∀ fl l, ReadsText l req t fl → ∀ n, xs.length < n →
      ∃ vs' l', list lite n l = .ok (vs', l') ∧ List.Forall₂ (Shows fl) vs' xs := by
  obtain ⟨t, e1, e2⟩ := appendAll_spec h hs
  refine ⟨t, e1, fun fl l hl n hn => ?_⟩
  have key : LiteEntries req (xs.map (lineOf false form)) xs := by
    clear hn e1 e2
    induction h with
    | nil => exact .nil
    | @cons v x vs xs h1 h2 ih =>
      have ih := ih (fun y hy => hs y (by simp [hy])) (fun y hy => hx y (by simp [hy]))
      have hl := (lineOf_line h1 (hs x (by simp))).1
      simp only [Bool.false_eq_true, if_false] at hl
      exact .entry hl (Or.inr ⟨hr, hx x (by simp), Or.inl rfl⟩) ih
  exact C60_entries hl e2 key hn

example : ∃ t, appendAll (.ok 0) true .name [⟨.ok "Foo Bar".toList, .ok [], .ok "x1x4,2".toList, 6, none, none⟩,
    ⟨.ok [], .ok [], .ok "+1,3".toList, 3, none, none⟩] = .ok t ∧ t = "6:x1x4,2\tFoo Bar\n3:+1,3\t\n".toList := ⟨_, rfl, by decide +kernel⟩

end Ringing.Lib
