import Verif.Model.Library
import Verif.Spec.Library
import Mathlib.Data.List.Basic
import Mathlib.Tactic.Common

/-! Lines of a stream, searching in strings, numbers. -/
namespace Ringing.Lib
open Spec

theorem takeLine_append {l : Str} (h : '\n' ∉ l) (t : Str) : takeLine (l ++ '\n' :: t) = (l, some t) := by
  induction l with
  | nil => simp [takeLine]
  | cons c l ih =>
    simp only [List.mem_cons, not_or] at h
    simp [takeLine, ih h.2, Ne.symm h.1]

theorem takeLine_last {l : Str} (h : '\n' ∉ l) : takeLine l = (l, none) := by
  induction l with
  | nil => simp [takeLine]
  | cons c l ih =>
    simp only [List.mem_cons, not_or] at h
    simp [takeLine, ih h.2, Ne.symm h.1]

/-- The stream has not failed and the given lines are left. -/
def StreamAt (s : IStream) (ls : List Str) : Prop :=
  (∃ t, s = ⟨t, false, false⟩ ∧ Lines t ls) ∨ (s = ⟨[], true, false⟩ ∧ ls = [])

theorem StreamAt.ok {s : IStream} {ls : List Str} (h : StreamAt s ls) : s.ok = true := by
  rcases h with ⟨t, rfl, -⟩ | ⟨rfl, -⟩ <;> rfl

theorem lines_length {t : Str} {ls : List Str} (h : Lines t ls) : ls.length ≤ t.length := by
  induction h with
  | nil => simp
  | @last l h _ =>
    have := List.length_pos_of_ne_nil h
    simp; omega
  | cons _ _ ih => simp; omega

theorem StreamAt.length {s : IStream} {ls : List Str} (h : StreamAt s ls) : ls.length ≤ s.rest.length := by
  rcases h with ⟨t, rfl, h⟩ | ⟨rfl, rfl⟩
  · exact lines_length h
  · simp

theorem getline_cons {s : IStream} {l : Str} {ls : List Str} (h : StreamAt s (l :: ls)) (buf : Str) :
    ∃ s', getline s buf = (s', l) ∧ StreamAt s' ls := by
  rcases h with ⟨t, rfl, h⟩ | ⟨-, h⟩
  · cases h with
    | last h1 h2 =>
      refine ⟨⟨[], true, false⟩, ?_, Or.inr ⟨rfl, rfl⟩⟩
      simp [getline, takeLine_last h2, h1]
    | @cons l t ls h1 h2 =>
      refine ⟨⟨t, false, false⟩, ?_, Or.inl ⟨t, rfl, h2⟩⟩
      simp [getline, takeLine_append h1]
  · cases h

theorem getline_nil {s : IStream} (h : StreamAt s []) (buf : Str) :
    ∃ s' l, getline s buf = (s', l) ∧ s'.ok = false ∧ (l = [] ∨ l = buf) ∧ s'.eof = true := by
  rcases h with ⟨t, rfl, h⟩ | ⟨rfl, -⟩
  · cases h
    exact ⟨_, _, rfl, rfl, Or.inl rfl, rfl⟩
  · exact ⟨_, _, rfl, rfl, Or.inr rfl, rfl⟩

theorem exists_lines (t : Str) : ∃ ls, Lines t ls := by
  have key : ∀ n (t : Str), t.length ≤ n → ∃ ls, Lines t ls := by
    intro n
    induction n with
    | zero => intro t h; obtain rfl := List.length_eq_zero_iff.1 (Nat.le_zero.1 h); exact ⟨_, .nil⟩
    | succ n ih =>
      intro t h
      by_cases hn : '\n' ∈ t
      · obtain ⟨a, b, rfl, ha⟩ := List.append_of_mem hn |>.elim fun a h => h.elim fun b h => by
          obtain ⟨a, b, e, h'⟩ := List.eq_append_cons_of_mem hn
          exact (⟨a, b, e, h'⟩ : ∃ a b, t = a ++ '\n' :: b ∧ '\n' ∉ a)
        obtain ⟨ls, hl⟩ := ih b (by simp at h; omega)
        exact ⟨_, .cons ha hl⟩
      · by_cases ht : t = []
        · subst ht; exact ⟨_, .nil⟩
        · exact ⟨_, .last ht hn⟩
  exact key _ t le_rfl

/-! ### Searching -/

theorem findFrom_none {p : Char → Bool} {s : Str} {k : Nat} : findFrom p s k = none ↔ ∀ c ∈ s.drop k, p c = false := by
  simp [findFrom]

theorem findFrom_split {p : Char → Bool} {a b : Str} {c : Char} (ha : ∀ x ∈ a, p x = false) (hc : p c = true) (u : Str) :
    findFrom p (u ++ a ++ c :: b) u.length = some (u.length + a.length) := by
  have : (a ++ c :: b).findIdx? p = some a.length := by
    induction a with
    | nil => rw [List.nil_append, List.findIdx?_cons, hc]; rfl
    | cons x a ih =>
      have hx := ha x (by simp)
      rw [List.cons_append, List.findIdx?_cons, hx]
      simp only [Bool.false_eq_true, if_false]
      rw [ih (fun y hy => ha y (by simp [hy]))]
      simp
  simp [findFrom, this]; omega

theorem findFrom_split0 {p : Char → Bool} {a b : Str} {c : Char} (ha : ∀ x ∈ a, p x = false) (hc : p c = true) :
    findFrom p (a ++ c :: b) 0 = some a.length := by
  have := findFrom_split ha hc (b := b) []
  simpa using this

theorem findLast_split {p : Char → Bool} {a b : Str} {c : Char} (hb : ∀ x ∈ b, p x = false) (hc : p c = true) :
    findLast p (a ++ c :: b) = some a.length := by
  have h := findFrom_split0 (p := p) (a := b.reverse) (b := a.reverse) (c := c) (by simpa using hb) hc
  have e : (a ++ c :: b).reverse = b.reverse ++ c :: a.reverse := by simp
  unfold findLast
  rw [e]
  simp only [findFrom, List.drop_zero, Option.map_eq_some_iff] at h
  obtain ⟨k, h1, h2⟩ := h
  rw [h1]
  simp at h2 ⊢
  omega

theorem isBlank4_iff {c : Char} : isBlank4 c = true ↔ Blank c := by simp [isBlank4, Blank]
theorem isBlank2_iff {c : Char} : isBlank2 c = true ↔ Spec.Gap c := by simp [isBlank2, Spec.Gap]
theorem isSpace_iff {c : Char} : Bell.isSpace c = true ↔ Space c := by simp [Bell.isSpace, Space]
theorem isDigit_iff {c : Char} : Bell.isDigit c = true ↔ Digit c := by simp [Bell.isDigit, Digit]

/-- Either all characters have `p` or there is a first one without it. -/
theorem split_first (p : Char → Prop) [DecidablePred p] (s : Str) :
    (∀ c ∈ s, p c) ∨ ∃ a c b, s = a ++ c :: b ∧ (∀ x ∈ a, p x) ∧ ¬ p c := by
  induction s with
  | nil => left; simp
  | cons c s ih =>
    by_cases hc : p c
    · rcases ih with h | ⟨a, d, b, rfl, ha, hd⟩
      · left; intro x hx; rcases List.mem_cons.1 hx with rfl | hx
        · exact hc
        · exact h x hx
      · right; refine ⟨c :: a, d, b, rfl, ?_, hd⟩
        intro x hx; rcases List.mem_cons.1 hx with rfl | hx
        · exact hc
        · exact ha x hx
    · right; exact ⟨[], c, s, rfl, by simp, hc⟩

theorem split_last (p : Char → Prop) [DecidablePred p] (s : Str) :
    (∀ c ∈ s, p c) ∨ ∃ a c b, s = a ++ c :: b ∧ (∀ x ∈ b, p x) ∧ ¬ p c := by
  rcases split_first p s.reverse with h | ⟨a, c, b, e, ha, hc⟩
  · left; simpa using h
  · right
    refine ⟨b.reverse, c, a.reverse, ?_, by simpa using ha, hc⟩
    have := congrArg List.reverse e
    simpa using this

/-! ### Trimming -/

theorem exists_trimmed (t : Str) : ∃ u, Trimmed t u := by
  rcases split_first Blank t with h | ⟨a, c, b, rfl, ha, hc⟩
  · exact ⟨[], t, [], by simp, h, by simp, by simp, by simp⟩
  · rcases split_last Blank (c :: b) with h | ⟨a', c', b', e, hb, hc'⟩
    · exact absurd (h c (by simp)) hc
    · refine ⟨a' ++ [c'], a, b', by rw [e]; simp, ha, hb, ?_, by simpa using hc'⟩
      intro x hx
      cases a' with
      | nil =>
        simp only [List.nil_append, List.head?_cons, Option.some.injEq] at hx
        rwa [← hx]
      | cons y a' =>
        simp only [List.cons_append, List.head?_cons, Option.some.injEq, List.cons.injEq] at hx e
        rw [← hx, ← e.1]; exact hc

/-- The payload of a line with the given rest. -/
theorem payload_spec {u w rest text : Str} (hw : ∀ c ∈ w, ¬ Blank c) (hr : ∀ c, rest.head? = some c → Blank c)
    (ht : Trimmed rest text) (b : Int) (fl : Bool) :
    LiteEntry.payload ⟨u ++ w ++ rest, u.length, b, fl⟩ = .ok text := by
  have hw' : ∀ x ∈ w, isBlank4 x = false := fun x hx => by
    have := hw x hx; rw [← isBlank4_iff] at this; simpa using this
  unfold LiteEntry.payload
  cases rest with
  | nil =>
    obtain ⟨a, b', e, -⟩ := ht
    have : text = [] := by
      have := congrArg List.length e; simp at this; exact List.length_eq_zero_iff.1 (by omega)
    subst this
    have : findFrom isBlank4 (u ++ w ++ []) u.length = none := by
      rw [findFrom_none]; simpa using hw'
    simp only [this, Option.bind_none]
  | cons c rest =>
    have hc : isBlank4 c = true := isBlank4_iff.2 (hr c rfl)
    simp only [findFrom_split hw' hc, Option.bind_some]
    obtain ⟨a, b', e, ha, hb', h1, h2⟩ := ht
    have hl : u.length + w.length = (u ++ w).length := by simp
    rw [hl]
    cases htx : text with
    | nil =>
      have hall : ∀ x ∈ (c :: rest), isBlank4 x = true := by
        rw [e, htx]; intro x hx
        rw [isBlank4_iff]
        simp only [List.append_nil, List.mem_append] at hx
        rcases hx with hx | hx
        · exact ha x hx
        · exact hb' x hx
      have : findFrom (fun c => !isBlank4 c) (u ++ w ++ c :: rest) (u ++ w).length = none := by
        rw [findFrom_none]
        intro x hx
        rw [List.drop_left] at hx
        simp [hall x hx]
      simp only [this]
    | cons d text' =>
      rw [e]
      have hd : (!isBlank4 d) = true := by
        have := h1 d (by rw [htx]; rfl)
        rw [← isBlank4_iff] at this; simpa using this
      have ha' : ∀ x ∈ a, (!isBlank4 x) = false := fun x hx => by
        have := isBlank4_iff.2 (ha x hx); simp [this]
      have hb2 : ∀ x ∈ b', (!isBlank4 x) = false := fun x hx => by
        have := isBlank4_iff.2 (hb' x hx); simp [this]
      have e1 : u ++ w ++ (a ++ text ++ b') = u ++ w ++ a ++ d :: (text' ++ b') := by rw [htx]; simp
      have f1 : findFrom (fun c => !isBlank4 c) (u ++ w ++ (a ++ text ++ b')) (u ++ w).length = some ((u ++ w).length + a.length) := by
        rw [e1]; exact findFrom_split (p := fun c => !isBlank4 c) ha' hd (u ++ w)
      obtain ⟨text0, z, hz⟩ : ∃ text0 z, text = text0 ++ [z] := by
        refine ⟨text.dropLast, text.getLast (by rw [htx]; simp), (List.dropLast_append_getLast _).symm⟩
      have hz' : (!isBlank4 z) = true := by
        have := h2 z (by rw [hz]; simp)
        rw [← isBlank4_iff] at this; simpa using this
      have e2 : u ++ w ++ (a ++ text ++ b') = (u ++ w ++ a ++ text0) ++ z :: b' := by rw [hz]; simp
      have f2 : findLast (fun c => !isBlank4 c) (u ++ w ++ (a ++ text ++ b')) = some ((u ++ w ++ a ++ text0).length) := by
        rw [e2]; exact findLast_split hb2 hz'
      simp only [f1, f2]
      unfold substr
      rw [if_pos (by simp; omega)]
      have e3 : u ++ w ++ (a ++ text ++ b') = (u ++ w ++ a) ++ (text ++ b') := by simp
      have e4 : (u ++ w).length + a.length = (u ++ w ++ a).length := by simp; omega
      rw [e3, e4, List.drop_left]
      have e5 : (u ++ w ++ a ++ text0).length - (u ++ w ++ a).length + 1 = text.length := by rw [hz]; simp; omega
      rw [e5, List.take_left, ← htx]

theorem pn_spec {u w rest : Str} (hw : ∀ c ∈ w, ¬ Blank c) (hr : ∀ c, rest.head? = some c → Blank c) (b : Int) (fl : Bool) :
    LiteEntry.pn ⟨u ++ w ++ rest, u.length, b, fl⟩ = .ok w := by
  have hw' : ∀ x ∈ w, isBlank4 x = false := fun x hx => by
    have := hw x hx; rw [← isBlank4_iff] at this; simpa using this
  unfold LiteEntry.pn
  cases rest with
  | nil =>
    have : findFrom isBlank4 (u ++ w ++ []) u.length = none := by
      rw [findFrom_none]; simpa using hw'
    simp only [this]
    simp [substrEnd]
  | cons c rest =>
    have hc : isBlank4 c = true := isBlank4_iff.2 (hr c rfl)
    simp only [findFrom_split hw' hc]
    unfold substr
    rw [if_pos (by simp), List.append_assoc, List.drop_left, Nat.add_sub_cancel_left, List.take_left]

/-! ### Numbers -/

theorem mem_takeWhile' {p : Char → Bool} {s : Str} {c : Char} (h : c ∈ s.takeWhile p) : p c = true := by
  induction s with
  | nil => simp at h
  | cons x s ih =>
    rw [List.takeWhile_cons] at h
    split at h
    · rcases List.mem_cons.1 h with rfl | h
      · assumption
      · exact ih h
    · simp at h

theorem takeWhile_split {p : Char → Bool} {a b : Str} (ha : ∀ c ∈ a, p c = true) (hb : ∀ c, b.head? = some c → p c = false) :
    (a ++ b).takeWhile p = a ∧ (a ++ b).dropWhile p = b := by
  induction a with
  | nil =>
    cases b with
    | nil => simp
    | cons c b => have := hb c rfl; simp [this]
  | cons c a ih =>
    have := ih (fun x hx => ha x (by simp [hx]))
    simp [ha c (by simp), this.1, this.2]

theorem digitsValue_eq (ds : Str) : digitsValue ds = number ds := by
  unfold digitsValue number
  have key : ∀ (l : Str), Nat.ofDigits 10 (l.map fun c => c.toNat - '0'.toNat) =
      l.foldr (fun d v => 10 * v + (d.toNat - '0'.toNat)) 0 := by
    intro l
    induction l with
    | nil => rfl
    | cons c l ih => rw [List.map_cons, Nat.ofDigits_cons, ih, List.foldr_cons]; simp; omega
  rw [key, List.foldr_reverse]

theorem lexicalCast_spec {s : Str} {v : Int} (h : IsInt s v) : lexicalCastInt s = .ok v := by
  obtain ⟨a, sg, ds, b, rfl, ha, hb, hne, hds, hs, h1, h2⟩ := h
  obtain ⟨d, ds', rfl⟩ := List.exists_cons_of_ne_nil hne
  have hd := hds d (by simp)
  have hdn : ¬ Space d := by
    intro h
    rcases h with rfl | rfl | rfl | rfl | rfl | rfl <;> revert hd <;> unfold Digit <;> decide
  have hdm : d ≠ '-' ∧ d ≠ '+' := by
    constructor <;> (rintro rfl; revert hd; unfold Digit; decide)
  have hb' : ∀ c, b.head? = some c → Bell.isDigit c = false := by
    intro c hc
    have hc' : Space c := hb c (by cases b with | nil => cases hc | cons x b => simp at hc; simp [hc])
    have : ¬ Digit c := by
      rcases hc' with rfl | rfl | rfl | rfl | rfl | rfl <;> unfold Digit <;> decide
    rw [← isDigit_iff] at this; simpa using this
  have hsp : ∀ c ∈ a, Bell.isSpace c = true := fun c hc => isSpace_iff.2 (ha c hc)
  have hsb : b.dropWhile Bell.isSpace = [] := by
    have := (takeWhile_split (p := Bell.isSpace) (a := b) (b := []) (fun c hc => isSpace_iff.2 (hb c hc)) (by simp)).2
    simpa using this
  have hdd : ∀ c ∈ (d :: ds'), Bell.isDigit c = true := fun c hc => isDigit_iff.2 (hds c hc)
  have htw := takeWhile_split (b := b) hdd hb'
  have hsg : ∀ c, (sg ++ (d :: ds') ++ b).head? = some c → Bell.isSpace c = false := by
    intro c hc
    have : ¬ Space c := by
      rcases hs with ⟨rfl, -⟩ | ⟨rfl, -⟩ | ⟨rfl, -⟩ <;> simp at hc <;> rw [← hc]
      · exact hdn
      · unfold Space; decide
      · unfold Space; decide
    rw [← isSpace_iff] at this; simpa using this
  have ht : (a ++ sg ++ (d :: ds') ++ b).dropWhile Bell.isSpace = sg ++ (d :: ds') ++ b := by
    have := (takeWhile_split hsp hsg).2
    simpa using this
  unfold lexicalCastInt
  simp only [ht]
  have hr : ¬ (v < -2 ^ 31 ∨ 2 ^ 31 ≤ v) := by omega
  simp only [List.cons_append] at htw
  rw [← digitsValue_eq] at hs
  have fin : (if d :: ds' = [] then (.throw .badCast : Out Int) else if v < -2 ^ 31 ∨ 2 ^ 31 ≤ v then .throw .badCast
      else if b.dropWhile Bell.isSpace = [] then .ok v else .throw .badCast) = .ok v := by
    rw [if_neg hne, if_neg hr, if_pos hsb]
  rcases hs with ⟨rfl, rfl⟩ | ⟨rfl, rfl⟩ | ⟨rfl, rfl⟩
  · have e : (if List.head? ([] ++ d :: ds' ++ b) = some '-' ∨ List.head? ([] ++ d :: ds' ++ b) = some '+' then
        ([] ++ d :: ds' ++ b : Str).tail else [] ++ d :: ds' ++ b) = d :: (ds' ++ b) := by simp [hdm]
    have e1 : ¬ (List.head? ([] ++ d :: ds' ++ b) = some '-') := by simp [hdm]
    rw [e, htw.1, htw.2, if_neg e1]
    exact fin
  · have e : (if List.head? (['+'] ++ d :: ds' ++ b) = some '-' ∨ List.head? (['+'] ++ d :: ds' ++ b) = some '+' then
        (['+'] ++ d :: ds' ++ b : Str).tail else ['+'] ++ d :: ds' ++ b) = d :: (ds' ++ b) := by simp
    have e1 : ¬ (List.head? (['+'] ++ d :: ds' ++ b) = some '-') := by simp
    rw [e, htw.1, htw.2, if_neg e1]
    exact fin
  · have e : (if List.head? (['-'] ++ d :: ds' ++ b) = some '-' ∨ List.head? (['-'] ++ d :: ds' ++ b) = some '+' then
        (['-'] ++ d :: ds' ++ b : Str).tail else ['-'] ++ d :: ds' ++ b) = d :: (ds' ++ b) := by simp
    have e1 : List.head? (['-'] ++ d :: ds' ++ b) = some '-' := by simp
    rw [e, htw.1, htw.2, if_pos e1]
    exact fin

theorem lexicalCast_cases (s : Str) : lexicalCastInt s = .throw .badCast ∨ ∃ v, lexicalCastInt s = .ok v ∧ IsInt s v := by
  unfold lexicalCastInt
  obtain ⟨t, ht⟩ : ∃ t, t = s.dropWhile Bell.isSpace := ⟨_, rfl⟩
  simp only [← ht]
  have hs : s = s.takeWhile Bell.isSpace ++ t := by rw [ht]; exact (List.takeWhile_append_dropWhile).symm
  obtain ⟨u, hu⟩ : ∃ u, u = if t.head? = some '-' ∨ t.head? = some '+' then t.tail else t := ⟨_, rfl⟩
  simp only [← hu]
  by_cases h1 : u.takeWhile Bell.isDigit = []
  · left; rw [if_pos h1]
  rw [if_neg h1]
  obtain ⟨v, hv⟩ : ∃ v : Int, v = if t.head? = some '-' then -(digitsValue (u.takeWhile Bell.isDigit) : Int) else digitsValue (u.takeWhile Bell.isDigit) := ⟨_, rfl⟩
  simp only [← hv]
  by_cases h2 : v < -2 ^ 31 ∨ 2 ^ 31 ≤ v
  · left; rw [if_pos h2]
  rw [if_neg h2]
  by_cases h3 : (u.dropWhile Bell.isDigit).dropWhile Bell.isSpace = []
  swap
  · left; rw [if_neg h3]
  rw [if_pos h3]
  right
  refine ⟨v, rfl, ?_⟩
  obtain ⟨sg, hsg, hsg2⟩ : ∃ sg, t = sg ++ u ∧ ((sg = [] ∧ v = digitsValue (u.takeWhile Bell.isDigit)) ∨
      (sg = ['+'] ∧ v = digitsValue (u.takeWhile Bell.isDigit)) ∨ (sg = ['-'] ∧ v = -(digitsValue (u.takeWhile Bell.isDigit) : Int))) := by
    cases htt : t with
    | nil => exact ⟨[], by simp [hu, htt], Or.inl ⟨rfl, by simp [hv, htt]⟩⟩
    | cons c t' =>
      by_cases hm : c = '-'
      · subst hm
        refine ⟨['-'], by simp [hu, htt], Or.inr (Or.inr ⟨rfl, by simp [hv, htt]⟩)⟩
      · by_cases hp : c = '+'
        · subst hp
          refine ⟨['+'], by simp [hu, htt], Or.inr (Or.inl ⟨rfl, by simp [hv, htt]⟩)⟩
        · refine ⟨[], by simp [hu, htt, hm, hp], Or.inl ⟨rfl, by simp [hv, htt, hm]⟩⟩
  have hsp : ∀ c ∈ u.dropWhile Bell.isDigit, Bell.isSpace c = true := by
    intro c hc
    have e : u.dropWhile Bell.isDigit = (u.dropWhile Bell.isDigit).takeWhile Bell.isSpace := by
      conv_lhs => rw [← List.takeWhile_append_dropWhile (p := Bell.isSpace) (l := u.dropWhile Bell.isDigit), h3]
      simp
    rw [e] at hc
    exact mem_takeWhile' hc
  refine ⟨s.takeWhile Bell.isSpace, sg, u.takeWhile Bell.isDigit, u.dropWhile Bell.isDigit, ?_, ?_, ?_, h1, ?_, ?_, by omega, by omega⟩
  · conv_lhs => rw [hs, hsg, ← List.takeWhile_append_dropWhile (p := Bell.isDigit) (l := u)]
    simp
  · intro c hc; exact isSpace_iff.1 (mem_takeWhile' hc)
  · intro c hc; exact isSpace_iff.1 (hsp c hc)
  · intro c hc; exact isDigit_iff.1 (mem_takeWhile' hc)
  · simpa only [digitsValue_eq] using hsg2

/-! ### Lines -/

theorem firstWord_cases (l : Str) : (∀ c ∈ l, Spec.Gap c) ∨ ∃ w r, FirstWord l w r := by
  rcases split_first Spec.Gap l with h | ⟨a, c, b, rfl, ha, hc⟩
  · exact Or.inl h
  · right
    rcases split_first (fun c => ¬ Blank c) (c :: b) with h | ⟨w, d, r, e, hw, hd⟩
    · exact ⟨c :: b, [], a, by simp, ha, h, ⟨c, by simp, hc⟩, by simp⟩
    · refine ⟨w, d :: r, a, by rw [e]; simp, ha, hw, ⟨c, by rw [← e]; rfl, hc⟩, ?_⟩
      intro x hx; simp at hx; rw [← hx]; exact not_not.1 hd

theorem line_cases (l : Str) : (∀ c ∈ l, Spec.Gap c) ∨ BadLine l ∨ ∃ bells pn text, LiteLine l bells pn text := by
  rcases firstWord_cases l with h | ⟨w, r, h⟩
  · exact Or.inl h
  · right
    obtain ⟨text, ht⟩ := exists_trimmed r
    rcases split_first (· ≠ ':') w with hw | ⟨a, c, b, rfl, ha, hc⟩
    · right
      exact ⟨none, w, text, w, r, h, ht, Or.inl ⟨rfl, fun h => hw _ h rfl, rfl⟩⟩
    · have hc' : c = ':' := not_not.1 hc
      subst hc'
      by_cases hk : ∃ k, IsInt a k
      · obtain ⟨k, hk⟩ := hk
        right
        exact ⟨some k, b, text, _, r, h, ht, Or.inr ⟨a, k, rfl, rfl, fun h => ha _ h rfl, hk⟩⟩
      · left
        exact ⟨_, r, a, b, h, rfl, fun h => ha _ h rfl, fun k hk' => hk ⟨k, hk'⟩⟩

theorem findGap_blank {l : Str} (h : ∀ c ∈ l, Spec.Gap c) : findFrom (fun c => !isBlank2 c) l 0 = none := by
  rw [findFrom_none]
  intro c hc
  have := isBlank2_iff.2 (h c (by simpa using hc))
  simp [this]

theorem findGap_word {l w r : Str} (h : FirstWord l w r) :
    ∃ gaps, l = gaps ++ w ++ r ∧ findFrom (fun c => !isBlank2 c) l 0 = some gaps.length := by
  obtain ⟨g, rfl, hg, hw, ⟨c, hc, hc'⟩, hr⟩ := h
  refine ⟨g, rfl, ?_⟩
  obtain ⟨t, ht⟩ : ∃ t, w ++ r = c :: t := by
    cases hwr : w ++ r with
    | nil => rw [hwr] at hc; cases hc
    | cons x t => rw [hwr] at hc; simp at hc; exact ⟨t, by rw [hc]⟩
  rw [List.append_assoc, ht]
  refine findFrom_split0 (p := fun c => !isBlank2 c) ?_ ?_
  · intro x hx; have := isBlank2_iff.2 (hg x hx); simp [this]
  · rw [← isBlank2_iff] at hc'; simpa using hc'

/-- The entry object holds the given number of bells, place notation and text. -/
def Holds (fl : Bool) (e : LiteEntry) (x : Int × Str × Str) : Prop :=
  e.b = x.1 ∧ e.pn = .ok x.2.1 ∧ e.payload = .ok x.2.2 ∧ e.nameFlag = fl

theorem readBells_spec {l pn text : Str} {bells : Option Int} (h : LiteLine l bells pn text) (b : Int) (fl : Bool) :
    ∃ k, findFrom (fun c => !isBlank2 c) l 0 = some k ∧
      ∃ ls, LiteEntry.readBells ⟨l, k, b, fl⟩ = .ok (bells.getD 0, ⟨l, ls, b, fl⟩) ∧
        LiteEntry.pn ⟨l, ls, b, fl⟩ = .ok pn ∧ LiteEntry.payload ⟨l, ls, b, fl⟩ = .ok text := by
  obtain ⟨w, r, hw, ht, h⟩ := h
  obtain ⟨g, hl, hk⟩ := findGap_word hw
  refine ⟨_, hk, ?_⟩
  obtain ⟨-, -, -, hwb, -, hr⟩ := hw
  subst hl
  unfold LiteEntry.readBells
  rw [pn_spec hwb hr, Out.ok_bind]
  rcases h with ⟨rfl, hc, rfl⟩ | ⟨num, k, rfl, rfl, hc, hk⟩
  · have : findFrom (fun x => decide (x = ':')) pn 0 = none := by
      rw [findFrom_none]; intro c hc'
      simp only [List.drop_zero] at hc'
      simp only [decide_eq_false_iff_not]
      rintro rfl; exact hc hc'
    rw [this]
    exact ⟨_, rfl, pn_spec hwb hr b fl, payload_spec hwb hr ht b fl⟩
  · have : findFrom (fun x => decide (x = ':')) (num ++ ':' :: pn) 0 = some num.length :=
      findFrom_split0 (by intro x hx; simp only [decide_eq_false_iff_not]; rintro rfl; exact hc hx) (by simp)
    rw [this]
    simp only [substr, Nat.zero_le, if_true, List.drop_zero, List.take_left, Out.ok_bind, lexicalCast_spec hk]
    have e1 : g ++ (num ++ ':' :: pn) ++ r = (g ++ num ++ [':']) ++ pn ++ r := by simp
    have e2 : g.length + num.length + 1 = (g ++ num ++ [':']).length := by simp; omega
    have hpn : ∀ c ∈ pn, ¬ Blank c := fun c hc => hwb c (by simp [hc])
    refine ⟨_, rfl, ?_, ?_⟩
    · rw [e1, e2]; exact pn_spec hpn hr b fl
    · rw [e1, e2]; exact payload_spec hpn hr ht b fl

theorem readBells_bad {l : Str} (h : BadLine l) (b : Int) (fl : Bool) :
    ∃ k, findFrom (fun c => !isBlank2 c) l 0 = some k ∧ LiteEntry.readBells ⟨l, k, b, fl⟩ = .throw .badCast := by
  obtain ⟨w, r, num, pn, hw, rfl, hc, hk⟩ := h
  obtain ⟨g, hl, hg⟩ := findGap_word hw
  refine ⟨_, hg, ?_⟩
  obtain ⟨-, -, -, hwb, -, hr⟩ := hw
  subst hl
  unfold LiteEntry.readBells
  rw [pn_spec hwb hr, Out.ok_bind]
  have : findFrom (fun x => decide (x = ':')) (num ++ ':' :: pn) 0 = some num.length :=
    findFrom_split0 (by intro x hx; simp only [decide_eq_false_iff_not]; rintro rfl; exact hc hx) (by simp)
  rw [this]
  rcases lexicalCast_cases num with h | ⟨v, -, hv⟩
  · simp [substr, h]
  · exact absurd hv (hk v)

theorem wanted_iff {req : Int} {bells : Option Int} :
    (∃ b, Wanted req bells b) ↔ (req = 0 ∧ bells.getD 0 ≠ 0) ∨ (req ≠ 0 ∧ (bells.getD 0 = req ∨ bells.getD 0 = 0)) := by
  unfold Wanted
  constructor
  · rintro ⟨b, ⟨h1, rfl, h2⟩ | ⟨h1, rfl, h2⟩⟩
    · exact Or.inl ⟨h1, h2⟩
    · right; refine ⟨h1, ?_⟩
      rcases h2 with rfl | rfl | rfl <;> simp
  · rintro (⟨h1, h2⟩ | ⟨h1, h2⟩)
    · cases bells with
      | none => simp at h2
      | some k => exact ⟨k, Or.inl ⟨h1, rfl, h2⟩⟩
    · refine ⟨req, Or.inr ⟨h1, rfl, ?_⟩⟩
      cases bells with
      | none => exact Or.inl rfl
      | some k => simp only [Option.getD_some] at h2; rcases h2 with rfl | rfl <;> simp

/-- What `readentry` does, by the lines left. -/
theorem liteRead_spec {req : Int} {fl : Bool} : ∀ {ls : List Str} (e : LiteEntry) {s : IStream} {n : Nat}, StreamAt s ls → ls.length + 2 ≤ n →
    e.nameFlag = fl → (req ≠ 0 → e.b = req) →
    (LiteEntries req ls [] ∧ ∃ e' s', liteRead req n e s = .ok (false, e', s') ∧ s'.ok = false ∧ s'.eof = true) ∨
    (∃ ls1 l ls2, ls = ls1 ++ l :: ls2 ∧ LiteEntries req ls1 [] ∧ BadLine l ∧ liteRead req n e s = .throw .badCast) ∨
    (∃ ls1 l ls2 x e' s', ls = ls1 ++ l :: ls2 ∧ LiteEntries req (ls1 ++ [l]) [x] ∧ liteRead req n e s = .ok (true, e', s') ∧
      StreamAt s' ls2 ∧ Holds fl e' x ∧ (req ≠ 0 → e'.b = req)) := by
  intro ls
  induction ls with
  | nil =>
    intro e s n hs hn hfl hb
    left
    obtain ⟨k, rfl⟩ : ∃ k, n = k + 2 := ⟨n - 2, by simp at hn; omega⟩
    obtain ⟨s', l, h1, h2, -, h3⟩ := getline_nil hs e.linebuf
    refine ⟨.nil, { e with linebuf := l }, s', ?_, h2, h3⟩
    rw [liteRead, if_pos hs.ok, h1]
    simp only [h2, Bool.false_eq_true, if_false]
    rw [liteRead, if_neg (by rw [h2]; simp)]
  | cons l ls ih =>
    intro e s n hs hn hfl hb
    obtain ⟨k, rfl⟩ : ∃ k, n = k + 1 := ⟨n - 1, by simp at hn; omega⟩
    obtain ⟨s', h1, h2⟩ := getline_cons hs e.linebuf
    have hk : ls.length + 2 ≤ k := by simp at hn; omega
    have hstep : liteRead req (k + 1) e s = match findFrom (fun c => !isBlank2 c) l 0 with
        | some j => LiteEntry.readBells ⟨l, j, e.b, e.nameFlag⟩ >>= fun r =>
          if req = 0 ∧ r.1 ≠ 0 then .ok (true, { r.2 with b := r.1 }, s')
          else if req ≠ 0 ∧ (r.1 = req ∨ r.1 = 0) then .ok (true, r.2, s')
          else liteRead req k r.2 s'
        | none => liteRead req k { e with linebuf := l } s' := by
      rw [liteRead, if_pos hs.ok, h1]
      simp only [h2.ok, if_true]
      rfl
    rw [hstep]
    clear hstep
    have lift : ∀ e2 : LiteEntry, e2.nameFlag = fl → (req ≠ 0 → e2.b = req) →
        (∀ {ls0 es}, LiteEntries req ls0 es → LiteEntries req (l :: ls0) es) →
        (LiteEntries req (l :: ls) [] ∧ ∃ e' s'', liteRead req k e2 s' = .ok (false, e', s'') ∧ s''.ok = false ∧ s''.eof = true) ∨
        (∃ ls1 l' ls2, l :: ls = ls1 ++ l' :: ls2 ∧ LiteEntries req ls1 [] ∧ BadLine l' ∧ liteRead req k e2 s' = .throw .badCast) ∨
        (∃ ls1 l' ls2 x e' s'', l :: ls = ls1 ++ l' :: ls2 ∧ LiteEntries req (ls1 ++ [l']) [x] ∧ liteRead req k e2 s' = .ok (true, e', s'') ∧
          StreamAt s'' ls2 ∧ Holds fl e' x ∧ (req ≠ 0 → e'.b = req)) := by
      intro e2 hf2 hb2 hskip
      rcases ih e2 h2 hk hf2 hb2 with ⟨a1, a2⟩ | ⟨ls1, l', ls2, a1, a2, a3, a4⟩ | ⟨ls1, l', ls2, x, e', s'', a1, a2, a3⟩
      · exact Or.inl ⟨hskip a1, a2⟩
      · exact Or.inr (Or.inl ⟨l :: ls1, l', ls2, by rw [a1]; rfl, hskip a2, a3, a4⟩)
      · exact Or.inr (Or.inr ⟨l :: ls1, l', ls2, x, e', s'', by rw [a1]; rfl, hskip a2, a3⟩)
    rcases line_cases l with hl | hl | ⟨bells, pn, text, hl⟩
    · rw [findGap_blank hl]
      exact lift _ hfl hb (fun h => .blank hl h)
    · obtain ⟨j, f1, f2⟩ := readBells_bad hl e.b e.nameFlag
      rw [f1]
      simp only [f2, Out.throw_bind]
      exact Or.inr (Or.inl ⟨[], l, ls, rfl, .nil, hl, trivial⟩)
    · obtain ⟨j, f1, lst, f2, f3, f4⟩ := readBells_spec hl e.b e.nameFlag
      rw [f1]
      simp only [f2, Out.ok_bind]
      by_cases c1 : req = 0 ∧ bells.getD 0 ≠ 0
      · rw [if_pos c1]
        obtain ⟨b, hb'⟩ := wanted_iff.2 (Or.inl c1)
        have hbb : bells.getD 0 = b := by
          rcases hb' with ⟨-, h, -⟩ | ⟨h, -⟩
          · rw [h]; rfl
          · exact absurd c1.1 h
        refine Or.inr (Or.inr ⟨[], l, ls, (b, pn, text), _, s', rfl, .entry hl hb' .nil, rfl, h2, ⟨hbb, ?_, ?_, hfl⟩, fun h => absurd c1.1 h⟩)
        · exact f3
        · exact f4
      · rw [if_neg c1]
        by_cases c2 : req ≠ 0 ∧ (bells.getD 0 = req ∨ bells.getD 0 = 0)
        · rw [if_pos c2]
          obtain ⟨b, hb'⟩ := wanted_iff.2 (Or.inr c2)
          have hbb : b = req := by
            rcases hb' with ⟨h, -⟩ | ⟨-, h, -⟩
            · exact absurd h c2.1
            · exact h
          refine Or.inr (Or.inr ⟨[], l, ls, (b, pn, text), _, s', rfl, .entry hl hb' .nil, rfl, h2, ⟨?_, f3, f4, hfl⟩, hb⟩)
          rw [hbb]; exact hb c2.1
        · rw [if_neg c2]
          refine lift _ hfl hb (fun h => .other hl ?_ h)
          intro b hb'
          rcases wanted_iff.1 ⟨b, hb'⟩ with h | h
          · exact c1 h
          · exact c2 h

theorem liteEntries_append {req : Int} {a b : List Str} {es fs : List (Int × Str × Str)} (h : LiteEntries req a es)
    (h' : LiteEntries req b fs) : LiteEntries req (a ++ b) (es ++ fs) := by
  induction h with
  | nil => exact h'
  | blank h1 _ ih => exact .blank h1 ih
  | other h1 h2 _ ih => exact .other h1 h2 ih
  | entry h1 h2 _ ih => exact .entry h1 h2 ih

end Ringing.Lib
