import Verif.Props.Library
import Verif.Props.MethodName2
import Mathlib.Data.List.Infix

/-! C62: the name of a method in a lightweight library of titles. -/
namespace Ringing.Lib
open Spec Method

theorem findSub_none {t : Str} : ∀ (s : Str) (k : Nat), ¬ t <:+: s → findSub t s k = none := by
  intro s
  induction s with
  | nil =>
    intro k h
    have : t ≠ [] := by rintro rfl; exact h (List.infix_refl _)
    simp [findSub, this]
  | cons c s ih =>
    intro k h
    have h1 : ¬ t.isPrefixOf (c :: s) = true := by
      rw [List.isPrefixOf_iff_prefix]; exact fun h' => h h'.isInfix
    rw [findSub, if_neg h1]
    exact ih _ fun h' => h (h'.trans (List.suffix_cons c s).isInfix)

theorem findSub_first {t : Str} : ∀ (a b : Str) (k : Nat), t <+: b → t ≠ [] → (∀ i, i < a.length → ¬ t <+: (a.drop i ++ b)) →
    findSub t (a ++ b) k = some (k + a.length) := by
  intro a
  induction a with
  | nil =>
    intro b k h hne _
    cases b with
    | nil => exact absurd (List.prefix_nil.1 h) hne
    | cons c b =>
      rw [List.nil_append, findSub, if_pos (List.isPrefixOf_iff_prefix.2 h)]; rfl
  | cons c a ih =>
    intro b k h hne hf
    have h0 := hf 0 (by simp)
    rw [List.cons_append, findSub, if_neg (by rw [List.isPrefixOf_iff_prefix]; simpa using h0)]
    rw [ih b (k + 1) h hne (fun i hi => by have := hf (i + 1) (by simpa using hi); simpa using this)]
    simp; omega

/-- A word with no space is in two texts with a space between them only if it is in one of them. -/
theorem infix_space {w a b : Str} (hw : ' ' ∉ w) (h : w <:+: a ++ ' ' :: b) : w <:+: a ∨ w <:+: b := by
  obtain ⟨x, y, e⟩ := h
  rw [List.append_eq_append_iff] at e
  rcases e with ⟨z, h1, h2⟩ | ⟨z, h1, h2⟩
  · left; exact ⟨x, z, by rw [h1]⟩
  · rw [List.append_eq_append_iff] at h1
    rcases h1 with ⟨u, h3, h4⟩ | ⟨u, h3, h4⟩
    · -- x ++ w = a ++ z, a = x ++ u, w = u ++ z
      cases z with
      | nil => left; exact ⟨x, [], by rw [h3, h4]; simp⟩
      | cons c z =>
        injection h2 with h5 h6
        subst h5
        exact absurd (by rw [h4]; simp) hw
    · cases u with
      | nil =>
        simp only [List.nil_append] at h4
        cases w with
        | nil => left; exact List.nil_infix
        | cons c w =>
          rw [h4] at h2
          injection h2 with h5 h6
          subst h5; simp at hw
      | cons c u =>
        right
        rw [h4] at h2
        injection h2 with h5 h6
        exact ⟨u, y, by rw [h6]; simp⟩

theorem not_prefix_space {w n b : Str} (hw : ' ' ∉ w) (hn : ¬ w <:+: n) {i : Nat} (hi : i ≤ n.length) : ¬ w <+: (n.drop i ++ ' ' :: b) := by
  rintro ⟨y, e⟩
  rw [List.append_eq_append_iff] at e
  rcases e with ⟨z, h1, h2⟩ | ⟨z, h1, h2⟩
  · exact hn (List.IsInfix.trans ⟨[], z, by rw [h1]; simp⟩ (List.drop_suffix i n).isInfix)
  · cases z with
    | nil => exact hn (List.IsInfix.trans ⟨[], [], by rw [h1]; simp⟩ (List.drop_suffix i n).isInfix)
    | cons c z =>
      injection h2 with h5 h6
      subst h5
      exact hw (by rw [h1]; simp)

theorem findSub_end {w n : Str} (hw : ' ' ∉ w) (hne : w ≠ []) (hn : ¬ w <:+: n) : findSub w (n ++ ' ' :: w) 0 = some (n.length + 1) := by
  have := findSub_first (n ++ [' ']) w 0 (List.prefix_refl w) hne (by
    intro i hi
    simp only [List.length_append, List.length_singleton] at hi
    rw [List.drop_append_of_le_length (by omega), List.append_assoc]
    exact not_prefix_space hw hn (by omega))
  simpa using this

/-- The text has a character and its last one is not white space. -/
def EndsWell (n : Str) : Prop := ∃ c, n.getLast? = some c ∧ Bell.isSpace c = false

theorem EndsWell.append {n : Str} (h : EndsWell n) (a : Str) : EndsWell (a ++ n) := by
  obtain ⟨c, h1, h2⟩ := h
  exact ⟨c, by rw [List.getLast?_append, h1]; rfl, h2⟩

theorem trim_space {n : Str} (h : EndsWell n) : trimTrailing (n ++ [' ']) = .ok n := by
  obtain ⟨c, h1, h2⟩ := h
  cases n with
  | nil => cases h1
  | cons x n =>
    have hs : Bell.isSpace ' ' = true := by decide
    rw [List.cons_append, trimTrailing, List.reverse_append]
    simp only [List.reverse_singleton, List.singleton_append, List.dropWhile_cons, hs, if_true]
    cases hr : n.reverse with
    | nil => have : n = [] := by simpa using hr
             subst this; rfl
    | cons y m =>
      have hn : n = m.reverse ++ [y] := by have := congrArg List.reverse hr; simpa using this
      have hy : y = c := by
        rw [hn, ← List.cons_append, List.getLast?_concat] at h1
        exact Option.some.inj h1
      subst hy
      simp [List.dropWhile_cons, h2, hn]

theorem remove_none {n w : Str} (h : ¬ w <:+: n) : removeSuffix n w = .ok (false, n) := by
  unfold removeSuffix
  rw [findSub_none n 0 h]

theorem remove_end {n w : Str} (hw : ' ' ∉ w) (hne : w ≠ []) (hn : ¬ w <:+: n) (he : EndsWell n) :
    removeSuffix (n ++ ' ' :: w) w = .ok (true, n) := by
  unfold removeSuffix
  rw [findSub_end hw hne hn]
  have e : n ++ ' ' :: w = (n ++ [' ']) ++ w := by simp
  have e2 : (n ++ ' ' :: w).take (n.length + 1) = n ++ [' '] := by
    rw [e, show n.length + 1 = (n ++ [' ']).length by simp, List.take_left]
  simp only
  rw [if_pos (by simp; omega), e2, trim_space he]; rfl

theorem remove_empty {n : Str} (h : n ≠ []) : removeSuffix n [] = .ok (false, n) := by
  unfold removeSuffix
  cases n with
  | nil => exact absurd rfl h
  | cons c n =>
    have : findSub [] (c :: n) 0 = some 0 := by simp [findSub]
    rw [this]
    simp only
    rw [if_neg (by simp; omega)]

theorem remove_slow {n : Str} (hn : ¬ "Course".toList <:+: n) (he : EndsWell n) :
    removeSuffix (n ++ ' ' :: "Slow Course".toList) "Slow Course".toList = .ok (true, n) := by
  have hf : findSub "Slow Course".toList (n ++ ' ' :: "Slow Course".toList) 0 = some (n.length + 1) := by
    have := findSub_first (t := "Slow Course".toList) (n ++ [' ']) "Slow Course".toList 0 (List.prefix_refl _) (by decide) (by
      intro i hi hp
      simp only [List.length_append, List.length_singleton] at hi
      have hc : "Course".toList <+: ((n ++ ' ' :: "Slow".toList).drop (i + 5) ++ ' ' :: "Course".toList) := by
        obtain ⟨y, e⟩ := hp
        refine ⟨y, ?_⟩
        have e' := congrArg (List.drop 5) e
        have l1 : List.drop 5 ("Slow Course".toList ++ y) = "Course".toList ++ y := rfl
        rw [l1] at e'
        rw [e', ← List.drop_append_of_le_length (l₂ := "Slow Course".toList) (by simp; omega), List.drop_drop,
          ← List.drop_append_of_le_length (by simp; omega)]
        have : n ++ [' '] ++ "Slow Course".toList = n ++ ' ' :: "Slow".toList ++ ' ' :: "Course".toList := by
          rw [List.append_assoc, List.append_assoc]; rfl
        rw [this]
      refine not_prefix_space (n := n ++ ' ' :: "Slow".toList) (by decide) ?_ (by simp; omega) hc
      intro h
      rcases infix_space (by decide) h with h | h
      · exact hn h
      · revert h; decide)
    simpa using this
  unfold removeSuffix
  rw [hf]
  have e : n ++ ' ' :: "Slow Course".toList = (n ++ [' ']) ++ "Slow Course".toList := by simp
  have e2 : (n ++ ' ' :: "Slow Course".toList).take (n.length + 1) = n ++ [' '] := by
    rw [e, show n.length + 1 = (n ++ [' ']).length by simp, List.take_left]
  simp only
  rw [if_pos (by simp; omega), e2, trim_space he]; rfl

/-- The words of the classes. -/
def allWords : List Str := ["Bob", "Place", "Surprise", "Delight", "Alliance", "Course", "Little", "Differential"].map String.toList

/-- None of the words of the classes is part of the text. -/
def NoClass (n : Str) : Prop := ∀ w ∈ allWords, ¬ w <:+: n

theorem classname_2 : classnameC 2 9999 = .ok "Bob".toList := by decide
theorem classname_3 : classnameC 3 9999 = .ok "Place".toList := by decide
theorem classname_4 : classnameC 4 9999 = .ok "Treble Bob".toList := by decide
theorem classname_5 : classnameC 5 9999 = .ok "Surprise".toList := by decide
theorem classname_6 : classnameC 6 9999 = .ok "Delight".toList := by decide
theorem classname_7 : classnameC 7 9999 = .ok "Treble Place".toList := by decide
theorem classname_8 : classnameC 8 9999 = .ok "Alliance".toList := by decide
theorem classname_9 : classnameC 9 9999 = .ok [] := by decide
theorem classname_10 : classnameC 10 9999 = .ok "Slow Course".toList := by decide
theorem classname_little : classnameC M_LITTLE 9999 = .ok "Little".toList := by decide
theorem classname_diff : classnameC M_DIFFERENTIAL 9999 = .ok "Differential".toList := by decide

theorem loop_step_false {k c : Nat} {n w : Str} (h : classnameC c 9999 = .ok w) (hr : removeSuffix n w = .ok (false, n)) :
    classLoop (k + 1) c n = classLoop k (c + 1) n := by
  rw [classLoop, h, Out.ok_bind, hr]; rfl

theorem loop_step_true {k c : Nat} {n n' w : Str} (h : classnameC c 9999 = .ok w) (hr : removeSuffix n w = .ok (true, n')) :
    classLoop (k + 1) c n = .ok (true, n') := by
  rw [classLoop, h, Out.ok_bind, hr]; rfl

theorem not_treble_bob {n : Str} (h : ¬ "Bob".toList <:+: n) : ¬ "Treble Bob".toList <:+: n :=
  fun h' => h (List.IsInfix.trans (by decide) h')
theorem not_treble_place {n : Str} (h : ¬ "Place".toList <:+: n) : ¬ "Treble Place".toList <:+: n :=
  fun h' => h (List.IsInfix.trans (by decide) h')
theorem not_slow {n : Str} (h : ¬ "Course".toList <:+: n) : ¬ "Slow Course".toList <:+: n :=
  fun h' => h (List.IsInfix.trans (by decide) h')

/-- Adding a word keeps a text free of another word. -/
theorem free_add {w n x : Str} (hw : ' ' ∉ w) (hn : ¬ w <:+: n) (hx : ¬ w <:+: x) : ¬ w <:+: n ++ ' ' :: x := by
  intro h; rcases infix_space hw h with h | h
  · exact hn h
  · exact hx h

/-- The free words needed in the loop over the classes. -/
structure Free (n : Str) : Prop where
  bob : ¬ "Bob".toList <:+: n
  place : ¬ "Place".toList <:+: n
  surprise : ¬ "Surprise".toList <:+: n
  delight : ¬ "Delight".toList <:+: n
  alliance : ¬ "Alliance".toList <:+: n
  course : ¬ "Course".toList <:+: n

theorem NoClass.free {n : Str} (h : NoClass n) : Free n := by
  constructor <;> exact h _ (by decide)

theorem Free.add {n x : Str} (h : Free n) (hx : Free x) : Free (n ++ ' ' :: x) := by
  constructor
  · exact free_add (by decide) h.bob hx.bob
  · exact free_add (by decide) h.place hx.place
  · exact free_add (by decide) h.surprise hx.surprise
  · exact free_add (by decide) h.delight hx.delight
  · exact free_add (by decide) h.alliance hx.alliance
  · exact free_add (by decide) h.course hx.course

theorem loop_none {n : Str} (h : Free n) (he : EndsWell n) : classLoop 9 2 n = .ok (false, n) := by
  have hne : n ≠ [] := by rintro rfl; obtain ⟨c, hc, -⟩ := he; cases hc
  rw [loop_step_false classname_2 (remove_none h.bob), loop_step_false classname_3 (remove_none h.place),
    loop_step_false classname_4 (remove_none (not_treble_bob h.bob)), loop_step_false classname_5 (remove_none h.surprise),
    loop_step_false classname_6 (remove_none h.delight), loop_step_false classname_7 (remove_none (not_treble_place h.place)),
    loop_step_false classname_8 (remove_none h.alliance), loop_step_false classname_9 (remove_empty hne),
    loop_step_false classname_10 (remove_none (not_slow h.course))]
  rfl

theorem loop_class {n : Str} (h : Free n) (he : EndsWell n) {c : Nat} (hc : c ∈ [2, 3, 5, 6, 8, 10]) :
    classLoop 9 2 (n ++ ' ' :: (classWord c).toList) = .ok (true, n) := by
  have hne : ∀ x : Str, n ++ x ≠ [] := by
    intro x hx; have : n = [] := (List.append_eq_nil_iff.1 hx).1
    subst this; obtain ⟨c, hc, -⟩ := he; cases hc
  simp only [List.mem_cons, List.not_mem_nil, or_false] at hc
  rcases hc with rfl | rfl | rfl | rfl | rfl | rfl
  · exact loop_step_true classname_2 (remove_end (by decide) (by decide) h.bob he)
  · have h1 : ¬ "Bob".toList <:+: n ++ ' ' :: (classWord 3).toList := free_add (by decide) h.bob (by decide)
    rw [loop_step_false classname_2 (remove_none h1)]
    exact loop_step_true classname_3 (remove_end (by decide) (by decide) h.place he)
  · have h1 : ¬ "Bob".toList <:+: n ++ ' ' :: (classWord 5).toList := free_add (by decide) h.bob (by decide)
    have h2 : ¬ "Place".toList <:+: n ++ ' ' :: (classWord 5).toList := free_add (by decide) h.place (by decide)
    rw [loop_step_false classname_2 (remove_none h1), loop_step_false classname_3 (remove_none h2),
      loop_step_false classname_4 (remove_none (not_treble_bob h1))]
    exact loop_step_true classname_5 (remove_end (by decide) (by decide) h.surprise he)
  · have h1 : ¬ "Bob".toList <:+: n ++ ' ' :: (classWord 6).toList := free_add (by decide) h.bob (by decide)
    have h2 : ¬ "Place".toList <:+: n ++ ' ' :: (classWord 6).toList := free_add (by decide) h.place (by decide)
    have h3 : ¬ "Surprise".toList <:+: n ++ ' ' :: (classWord 6).toList := free_add (by decide) h.surprise (by decide)
    rw [loop_step_false classname_2 (remove_none h1), loop_step_false classname_3 (remove_none h2),
      loop_step_false classname_4 (remove_none (not_treble_bob h1)), loop_step_false classname_5 (remove_none h3)]
    exact loop_step_true classname_6 (remove_end (by decide) (by decide) h.delight he)
  · have h1 : ¬ "Bob".toList <:+: n ++ ' ' :: (classWord 8).toList := free_add (by decide) h.bob (by decide)
    have h2 : ¬ "Place".toList <:+: n ++ ' ' :: (classWord 8).toList := free_add (by decide) h.place (by decide)
    have h3 : ¬ "Surprise".toList <:+: n ++ ' ' :: (classWord 8).toList := free_add (by decide) h.surprise (by decide)
    have h4 : ¬ "Delight".toList <:+: n ++ ' ' :: (classWord 8).toList := free_add (by decide) h.delight (by decide)
    rw [loop_step_false classname_2 (remove_none h1), loop_step_false classname_3 (remove_none h2),
      loop_step_false classname_4 (remove_none (not_treble_bob h1)), loop_step_false classname_5 (remove_none h3),
      loop_step_false classname_6 (remove_none h4), loop_step_false classname_7 (remove_none (not_treble_place h2))]
    exact loop_step_true classname_8 (remove_end (by decide) (by decide) h.alliance he)
  · have h1 : ¬ "Bob".toList <:+: n ++ ' ' :: (classWord 10).toList := free_add (by decide) h.bob (by decide)
    have h2 : ¬ "Place".toList <:+: n ++ ' ' :: (classWord 10).toList := free_add (by decide) h.place (by decide)
    have h3 : ¬ "Surprise".toList <:+: n ++ ' ' :: (classWord 10).toList := free_add (by decide) h.surprise (by decide)
    have h4 : ¬ "Delight".toList <:+: n ++ ' ' :: (classWord 10).toList := free_add (by decide) h.delight (by decide)
    have h5 : ¬ "Alliance".toList <:+: n ++ ' ' :: (classWord 10).toList := free_add (by decide) h.alliance (by decide)
    rw [loop_step_false classname_2 (remove_none h1), loop_step_false classname_3 (remove_none h2),
      loop_step_false classname_4 (remove_none (not_treble_bob h1)), loop_step_false classname_5 (remove_none h3),
      loop_step_false classname_6 (remove_none h4), loop_step_false classname_7 (remove_none (not_treble_place h2)),
      loop_step_false classname_8 (remove_none h5), loop_step_false classname_9 (remove_empty (hne _))]
    exact loop_step_true classname_10 (remove_slow h.course he)

theorem stage_free (b : Nat) {x : Str} (hx : x ∈ allWords ++ ["Slow".toList]) : ¬ stageWord b <:+: x := by
  by_cases h : b < 23
  · have : ∀ b, b < 23 → ∀ x ∈ allWords ++ ["Slow".toList], ¬ stageWord b <:+: x := by decide +kernel
    exact this b h _ hx
  · have e : stageWord b = Spec.digits b := by
      unfold stageWord
      split <;> first | omega | rfl
    rw [e]
    intro hi
    obtain ⟨c, t, hct⟩ := List.exists_cons_of_ne_nil (digits_ne_nil (a := b) (by omega))
    have hd := digits_digit (n := b) (c := c) (by rw [hct]; simp)
    have hm : c ∈ x := hi.subset (by rw [hct]; simp)
    have hnd : ∀ x ∈ allWords ++ ["Slow".toList], ∀ c ∈ x, c.isDigit = false := by decide +kernel
    rw [hnd x hx c hm] at hd; cases hd

/-- Adding a word, or nothing. -/
def plus (n : Str) (w : Str) : Str := if w = [] then n else n ++ ' ' :: w

theorem phrase_plus (name : Str) (hne : name ≠ []) (a b c d : Str) (hd : d ≠ []) :
    phrase [name, a, b, c, d] = plus (plus (plus (plus name a) b) c) d := by
  have e : [name, a, b, c, d] = [name, a, b, c] ++ [d] := rfl
  have key : ∀ (l : List Str) (w : Str), phrase l ≠ [] → phrase (l ++ [w]) = plus (phrase l) w ∧ phrase (l ++ [w]) ≠ [] := by
    intro l w hl
    unfold plus
    by_cases hw : w = []
    · subst hw
      have : phrase (l ++ [[]]) = phrase l := by unfold phrase; simp
      rw [this, if_pos rfl]; exact ⟨rfl, hl⟩
    · rw [phrase_append_last l hw, if_neg hl, if_neg hw]; simp
  have h1 : phrase [name] = name := by rw [phrase_cons, if_neg hne, phrase_nil, if_pos rfl]
  have k1 := key [name] a (by rw [h1]; exact hne)
  have k2 := key [name, a] b k1.2
  have k3 := key [name, a, b] c k2.2
  have k4 := key [name, a, b, c] d k3.2
  simp only [List.cons_append, List.nil_append] at k1 k2 k3 k4
  rw [k4.1, k3.1, k2.1, k1.1, h1]

theorem EndsWell.plus {n w : Str} (h : EndsWell n) (hw : w = [] ∨ EndsWell w) : EndsWell (plus n w) := by
  unfold Lib.plus
  split
  · exact h
  · rcases hw with hw | hw
    · contradiction
    · have := hw.append (n ++ [' ']); simpa using this

theorem free_plus {v n w : Str} (hv : ' ' ∉ v) (hn : ¬ v <:+: n) (hw : w = [] ∨ ¬ v <:+: w) : ¬ v <:+: plus n w := by
  unfold plus
  split
  · exact hn
  · rcases hw with hw | hw
    · contradiction
    · exact free_add hv hn hw

theorem Free.plus {n w : Str} (h : Free n) (hw : w = [] ∨ Free w) : Free (plus n w) := by
  unfold Lib.plus
  split
  · exact h
  · rcases hw with hw | hw
    · contradiction
    · exact h.add hw

/-- C62: the name given by a lightweight library whose texts are titles is the title without the stage and the
class, for every class other than treble bob and treble place and little methods without a class.  The name
itself must have none of these words in it. -/
theorem C62_name {name : Str} {b : Nat} (hb : b < 10000000) (hend : ∃ c, name.getLast? = some c ∧ ¬ Space c)
    (hcl : NoClass name) (hst : ¬ stageWord b <:+: name) {d l : Bool} {c : Nat} (hc : c ∈ [0, 1, 2, 3, 5, 6, 8, 9, 10])
    (hl : l = true → c ∉ [0, 1, 9]) :
    baseName (phrase (name :: classWords d l c 9999 ++ [stageWord b])) b = .ok name := by
  have hE : EndsWell name := by
    obtain ⟨c, h1, h2⟩ := hend
    refine ⟨c, h1, ?_⟩
    rw [← isSpace_iff] at h2; simpa using h2
  have hne : name ≠ [] := by rintro rfl; obtain ⟨c, hc, -⟩ := hE; cases hc
  obtain ⟨hs1, hs2⟩ := stageWord_ne b
  obtain ⟨D, hD⟩ : ∃ D, D = if d then "Differential".toList else ([] : Str) := ⟨_, rfl⟩
  obtain ⟨L, hL⟩ : ∃ L, L = if l then "Little".toList else ([] : Str) := ⟨_, rfl⟩
  obtain ⟨C, hC⟩ : ∃ C, C = if (9999 : Int) ≥ 2019 ∧ c = 9 then ([] : Str) else (classWord c).toList := ⟨_, rfl⟩
  have e : name :: classWords d l c 9999 ++ [stageWord b] = [name, D, L, C, stageWord b] := by
    rw [hD, hL, hC]; rfl
  rw [e, phrase_plus name hne _ _ _ _ hs1]
  have wD : D = [] ∨ D = "Differential".toList := by rw [hD]; cases d <;> simp
  have wL : L = [] ∨ L = "Little".toList := by rw [hL]; cases l <;> simp
  have wC : (C = [] ∧ c ∈ [0, 1, 9]) ∨ (C = (classWord c).toList ∧ c ∈ [2, 3, 5, 6, 8, 10]) := by
    rw [hC]
    simp only [List.mem_cons, List.not_mem_nil, or_false] at hc
    rcases hc with rfl | rfl | rfl | rfl | rfl | rfl | rfl | rfl | rfl <;> decide
  have eW : ∀ x ∈ allWords ++ ["Slow".toList], EndsWell x := by
    have : ∀ x ∈ allWords ++ ["Slow".toList], ∃ c ∈ x, x.getLast? = some c ∧ Bell.isSpace c = false := by decide +kernel
    intro x hx; obtain ⟨c, -, h⟩ := this x hx; exact ⟨c, h⟩
  have hE1 : EndsWell (plus name D) := hE.plus (by rcases wD with h | h <;> rw [h] <;> [exact Or.inl rfl; exact Or.inr (eW _ (by decide))])
  have hE2 : EndsWell (plus (plus name D) L) := hE1.plus (by rcases wL with h | h <;> rw [h] <;> [exact Or.inl rfl; exact Or.inr (eW _ (by decide))])
  have fD : Free "Differential".toList := by constructor <;> decide
  have fL : Free "Little".toList := by constructor <;> decide
  have hF1 : Free (plus name D) := hcl.free.plus (by rcases wD with h | h <;> rw [h] <;> [exact Or.inl rfl; exact Or.inr fD])
  have hF2 : Free (plus (plus name D) L) := hF1.plus (by rcases wL with h | h <;> rw [h] <;> [exact Or.inl rfl; exact Or.inr fL])
  have cE : C = [] ∨ EndsWell C := by
    rcases wC with ⟨h, -⟩ | ⟨h, hm⟩
    · exact Or.inl h
    · right
      rw [h]
      simp only [List.mem_cons, List.not_mem_nil, or_false] at hm
      rcases hm with rfl | rfl | rfl | rfl | rfl | rfl
      all_goals first
        | exact eW _ (by decide)
        | exact (eW "Course".toList (by decide)).append "Slow ".toList
  have hE3 := hE2.plus cE
  have sD : D = [] ∨ ¬ stageWord b <:+: D := by rcases wD with h | h <;> rw [h] <;> [exact Or.inl rfl; exact Or.inr (stage_free b (by decide))]
  have sL : L = [] ∨ ¬ stageWord b <:+: L := by rcases wL with h | h <;> rw [h] <;> [exact Or.inl rfl; exact Or.inr (stage_free b (by decide))]
  have sC : C = [] ∨ ¬ stageWord b <:+: C := by
    rcases wC with ⟨h, -⟩ | ⟨h, hm⟩
    · exact Or.inl h
    · right
      rw [h]
      simp only [List.mem_cons, List.not_mem_nil, or_false] at hm
      rcases hm with rfl | rfl | rfl | rfl | rfl | rfl
      all_goals first
        | exact stage_free b (by decide)
        | exact free_add (n := "Slow".toList) (x := "Course".toList) hs2 (stage_free b (by decide)) (stage_free b (by decide))
  have hS3 : ¬ stageWord b <:+: plus (plus (plus name D) L) C := free_plus hs2 (free_plus hs2 (free_plus hs2 hst sD) sL) sC
  have r1 : removeSuffix (plus (plus (plus (plus name D) L) C) (stageWord b)) (stagename b) = .ok (true, plus (plus (plus name D) L) C) := by
    rw [C54_stage hb]
    rw [plus, if_neg hs1]
    exact remove_end hs2 hs1 hS3 hE3
  have r4 : removeSuffix (plus name D) "Differential".toList = .ok (true, name) ∨ removeSuffix (plus name D) "Differential".toList = .ok (false, name) := by
    rcases wD with h | h
    · right; rw [h]; exact remove_none (hcl _ (by decide))
    · left; rw [h]; exact remove_end (by decide) (by decide) (hcl _ (by decide)) hE
  have fin : ∀ x, x = plus name D → (removeSuffix x "Differential".toList >>= fun r => (pure r.2 : Out Str)) = .ok name := by
    rintro x rfl
    rcases r4 with h | h <;> rw [h] <;> rfl
  unfold baseName
  rw [r1, Out.ok_bind, if_pos rfl]
  rcases wC with ⟨h, hm⟩ | ⟨h, hm⟩
  · have hL0 : L = [] := by
      rw [hL]
      cases l with
      | false => rfl
      | true => exact absurd hm (hl rfl)
    have r2 : classLoop 9 2 (plus (plus (plus name D) L) C) = .ok (false, plus name D) := by
      rw [h, hL0]; exact loop_none hF1 hE1
    rw [r2, Out.ok_bind]
    simp only [Bool.false_eq_true, if_false]
    rw [classname_diff]
    exact fin _ rfl
  · have r2 : classLoop 9 2 (plus (plus (plus name D) L) C) = .ok (true, plus (plus name D) L) := by
      have hCne : C ≠ [] := by
        rw [h]; simp only [List.mem_cons, List.not_mem_nil, or_false] at hm
        rcases hm with rfl | rfl | rfl | rfl | rfl | rfl <;> decide
      rw [show plus (plus (plus name D) L) C = plus (plus name D) L ++ ' ' :: C by rw [plus, if_neg hCne], h]
      exact loop_class hF2 hE2 hm
    rw [r2, Out.ok_bind]
    simp only [if_true]
    rw [classname_little, Out.ok_bind, classname_diff]
    have lD : D = [] ∨ ¬ "Little".toList <:+: D := by rcases wD with h | h <;> rw [h] <;> [exact Or.inl rfl; exact Or.inr (by decide)]
    have hLf : ¬ "Little".toList <:+: plus name D := free_plus (by decide) (hcl _ (by decide)) lD
    have r3 : removeSuffix (plus (plus name D) L) "Little".toList = .ok (true, plus name D) ∨
        removeSuffix (plus (plus name D) L) "Little".toList = .ok (false, plus name D) := by
      rcases wL with h | h
      · right; rw [h]; exact remove_none hLf
      · left; rw [h]; exact remove_end (by decide) (by decide) hLf hE1
    rcases r3 with h | h <;> rw [h] <;> exact fin _ rfl

/-- C62, refutation: the name of a treble bob or treble place method keeps the word Treble. -/
theorem C62_treble {name : Str} {b : Nat} (hb : b < 10000000) (hend : ∃ c, name.getLast? = some c ∧ ¬ Space c)
    (hcl : NoClass name) (hst : ¬ stageWord b <:+: name) {c : Nat} (hc : c = 4 ∨ c = 7) :
    baseName (phrase (name :: classWords false false c 9999 ++ [stageWord b])) b = .ok (name ++ " Treble".toList) := by
  have hne : name ≠ [] := by rintro rfl; obtain ⟨c, hc, -⟩ := hend; cases hc
  have hs1 := (stageWord_ne b).1
  have hT : ∀ w ∈ allWords, ¬ w <:+: "Treble".toList := by decide +kernel
  have hsp : ∀ w ∈ allWords, ' ' ∉ w := by decide +kernel
  have hT2 : ¬ stageWord b <:+: "Treble".toList := by
    by_cases h : b < 23
    · have : ∀ b, b < 23 → ¬ stageWord b <:+: "Treble".toList := by decide +kernel
      exact this b h
    · have e : stageWord b = Spec.digits b := by
        unfold stageWord
        split <;> first | omega | rfl
      rw [e]; intro hi
      obtain ⟨c, t, hct⟩ := List.exists_cons_of_ne_nil (digits_ne_nil (a := b) (by omega))
      have hd := digits_digit (n := b) (c := c) (by rw [hct]; simp)
      have hm : c ∈ "Treble".toList := hi.subset (by rw [hct]; simp)
      have hnd : ∀ c ∈ "Treble".toList, c.isDigit = false := by decide +kernel
      rw [hnd c hm] at hd; cases hd
  have main := fun c' (hc' : c' ∈ [0, 1, 2, 3, 5, 6, 8, 9, 10]) => C62_name (name := name ++ ' ' :: "Treble".toList) hb (d := false) (l := false) (c := c')
    ⟨'e', by rw [List.getLast?_append]; rfl, by unfold Space; decide⟩
    (fun w hw => free_add (hsp w hw) (hcl w hw) (hT w hw)) (free_add (stageWord_ne b).2 hst hT2) hc' (by simp)
  have e : ∀ C C' : Str, C' ≠ [] → C = "Treble ".toList ++ C' → phrase (name :: [[], [], C] ++ [stageWord b]) =
      phrase ((name ++ ' ' :: "Treble".toList) :: [[], [], C'] ++ [stageWord b]) := by
    intro C C' h1 h2
    have hC : C ≠ [] := by rw [h2]; simp
    simp only [List.cons_append, List.nil_append]
    rw [phrase_plus name hne _ _ _ _ hs1, phrase_plus _ (by simp) _ _ _ _ hs1]
    simp only [plus, if_true, if_neg hC, if_neg h1, if_neg hs1, h2]
    simp
  rcases hc with rfl | rfl
  · have := main 2 (by decide)
    rw [show classWords false false 2 9999 = [[], [], "Bob".toList] from rfl] at this
    rw [show classWords false false 4 9999 = [[], [], "Treble Bob".toList] from rfl, e "Treble Bob".toList "Bob".toList (by decide) (by decide)]
    exact this
  · have := main 3 (by decide)
    rw [show classWords false false 3 9999 = [[], [], "Place".toList] from rfl] at this
    rw [show classWords false false 7 9999 = [[], [], "Treble Place".toList] from rfl, e "Treble Place".toList "Place".toList (by decide) (by decide)]
    exact this

/-- C62, refutations: the word Little stays if there is no word for the class; a title that is only a stage
reads outside the string. -/
theorem C62_others : baseName "Foo Little Minor".toList 6 = .ok "Foo Little".toList ∧ baseName "Minor".toList 6 = .ub := by
  constructor <;> decide +kernel

example : baseName "Foo Differential Little Surprise Major".toList 8 = .ok "Foo".toList := by decide +kernel
example : baseName "Kent Treble Bob Minor".toList 6 = .ok "Kent Treble".toList := by decide +kernel
example : NoClass "Plain".toList ∧ ¬ stageWord 6 <:+: "Plain".toList := by constructor <;> (try unfold NoClass) <;> decide +kernel

end Ringing.Lib
