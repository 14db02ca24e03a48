import Verif.Lemmas.SirilTokens2
/-
The tokens of lines and of texts.
-/
namespace Ringing.Siril
open Lexis

theorem stops_split {p : Char → Prop} [DecidablePred p] (s : Str) : ∃ b rest, s = b ++ rest ∧ (∀ c ∈ b, p c) ∧ Stops p rest := by
  rcases Lib.split_first p s with h | ⟨a, c, b, rfl, ha, hc⟩
  · exact ⟨s, [], by simp, h, by rintro c r h; cases h⟩
  · exact ⟨a, c :: b, rfl, ha, by rintro c r h; cases h; exact hc⟩

theorem single_nl {T : TArgs} {rest : Str} : Word T ['\n'] rest (.sym .newLine) := by
  refine .single (Or.inl (by decide)) ?_ ?_ ?_ ?_ ?_ ?_ ?_
  · simp [NameStart, Letter]
  · simp [Lexis.Digit]
  · simp [Blank]
  · intro d y h; simp [pairs] at h
  · rintro k ⟨⟩
  · intro _; decide
  · simp

theorem first_or_bad {T : TArgs} {c : Char} {cs l : Str} (hl : '\n' ∉ l) (e : c :: cs = l ++ ['\n']) (hc : ¬ Blank c) :
    (∃ t r, First T (c :: cs) t r) ∨ Bad (c :: cs) := by
  classical
  cases l with
  | nil =>
    obtain ⟨rfl, rfl⟩ : c = '\n' ∧ cs = [] := by simpa using e
    exact Or.inl ⟨_, _, _, rfl, single_nl⟩
  | cons c' l =>
    obtain ⟨rfl, rfl⟩ : c = c' ∧ cs = l ++ ['\n'] := by simpa using e
    simp only [List.mem_cons, not_or] at hl
    by_cases h1 : NameStart T c
    · left
      obtain ⟨b, rest, e1, hb, hr⟩ := stops_split (p := NamePart T) (l ++ ['\n'])
      exact ⟨_, rest, c :: b, by rw [e1]; rfl, .name h1 hb hr⟩
    by_cases h2 : Lexis.Digit c
    · left
      obtain ⟨b, rest, e1, hb, hr⟩ := stops_split (p := Lexis.Digit) (l ++ ['\n'])
      exact ⟨_, rest, c :: b, by rw [e1]; rfl, .number h2 hb hr⟩
    by_cases h3 : ∃ b, c :: l = commentMark T ++ b
    · left
      obtain ⟨b, hb⟩ := h3
      refine ⟨_, ['\n'], commentMark T ++ b, by rw [← hb]; rfl, .comment ?_ ⟨[], rfl⟩⟩
      intro h
      have : '\n' ∈ c :: l := by rw [hb]; simp [h]
      simp at this; tauto
    have h3a : T.msiril = true → c ≠ '/' := by
      rintro hm rfl; exact h3 ⟨l, by simp [commentMark, hm]⟩
    have h3b : T.msiril = false → c = '/' → ∀ r, l ++ ['\n'] ≠ '/' :: r := by
      rintro hm rfl r hr
      cases l with
      | nil => simp at hr
      | cons x l =>
        obtain ⟨rfl, -⟩ : x = '/' ∧ _ := by simpa using hr
        exact h3 ⟨l, by simp [commentMark, hm]⟩
    by_cases h4 : ∃ k, Quote T c k ∧ Closes c (l ++ ['\n'])
    · left
      obtain ⟨k, hq, b, r, e1, hb⟩ := h4
      rcases Lib.split_first (· ≠ c) (l ++ ['\n']) with h | ⟨b', d, r', e2, hb', hd⟩
      · exact absurd rfl (h c (by rw [e1]; simp))
      obtain rfl : d = c := by simpa using hd
      have hbb : ∃ u, b = b' ++ u := by
        rw [e2] at e1
        rcases List.append_eq_append_iff.1 e1 with ⟨u, h5, -⟩ | ⟨u, h5, h6⟩
        · exact ⟨u, h5⟩
        · cases u with
          | nil => exact ⟨[], by simpa using h5.symm⟩
          | cons x u =>
            obtain ⟨this, -⟩ : d = x ∧ r = u ++ d :: r' := by simpa using h6
            subst this
            exact absurd rfl (hb' d (by rw [h5]; simp))
      obtain ⟨u, rfl⟩ := hbb
      refine ⟨_, r', d :: (b' ++ [d]), by rw [e2]; simp, .quoted hq (fun h => hb' d h rfl) (fun h => hb (by simp [h])) ?_⟩
      rintro rfl rfl
      cases hq with
      | regex hm => exact h3b hm rfl _ e2
    by_cases h5 : ∃ d y r, (c, d, y) ∈ pairs ∧ l ++ ['\n'] = d :: r
    · obtain ⟨d, y, r, hp, e1⟩ := h5
      exact Or.inl ⟨_, r, [c, d], by rw [e1]; rfl, .pair hp⟩
    by_cases h6 : (c = '&' ∨ c = '+') ∧ ¬ Stops (fun d => PlaceChar d ∨ d = '{') (l ++ ['\n'])
    · rcases places_or_bad _ l le_rfl hl.2 with ⟨p, rest, e1, hp, hr⟩ | ⟨p, b, d, r, e1, hp, hb, hd⟩
      · left
        refine ⟨_, rest, c :: p, by rw [e1]; rfl, .place h6.1 hp ?_ hr⟩
        rintro rfl
        exact h6.2 (by rw [e1]; exact hr)
      · exact Or.inr ⟨c, p, b, d :: r, by rw [e1], h6.1, hp, hb, d, r, rfl, hd⟩
    · left
      refine ⟨_, l ++ ['\n'], [c], rfl, .single (single_exists c) h1 h2 hc ?_ ?_ h3a ?_⟩
      · rintro d y hp x r hx rfl; exact h5 ⟨x, y, r, hp, hx⟩
      · intro k hk h; exact h4 ⟨k, hk, h⟩
      · intro h; by_contra h'; exact h6 ⟨h, h'⟩

/-! ### Words stay on a line -/

theorem places_nl {p : Str} (h : Places p) : '\n' ∉ p := by
  induction h with
  | nil => simp
  | @char c s hc _ ih =>
    simp only [List.mem_cons, not_or]
    refine ⟨?_, ih⟩
    rintro rfl; revert hc; simp [PlaceChar, Letter, Lexis.Digit]
  | @braces b s hb _ ih =>
    intro h
    simp at h
    rcases h with h | h
    · exact (hb _ h).2.2 rfl
    · exact ih h

theorem start_nl {T : TArgs} : ¬ NamePart T '\n' := by simp [NamePart, NameStart, Letter, Lexis.Digit]

/-- A word is the end of a line or within one. -/
theorem word_nl {T : TArgs} {w rest : Str} {t : Tok} (h : Word T w rest t) : w ≠ [] ∧ (w = ['\n'] ∨ '\n' ∉ w) := by
  cases h with
  | @comment b _ hb _ =>
    refine ⟨by unfold commentMark; split <;> simp, Or.inr ?_⟩
    unfold commentMark; split <;> simp [hb]
  | @quoted q k b _ hq hb hb' _ =>
    refine ⟨by simp, Or.inr ?_⟩
    cases hq <;> simp [hb']
  | @pair a b y _ h =>
    refine ⟨by simp, Or.inr ?_⟩
    simp only [pairs, List.mem_cons, Prod.mk.injEq, List.not_mem_nil, or_false] at h
    rcases h with ⟨rfl, rfl, rfl⟩ | ⟨rfl, rfl, rfl⟩ | ⟨rfl, rfl, rfl⟩ | ⟨rfl, rfl, rfl⟩ | ⟨rfl, rfl, rfl⟩ | ⟨rfl, rfl, rfl⟩ | ⟨rfl, rfl, rfl⟩ |
      ⟨rfl, rfl, rfl⟩ | ⟨rfl, rfl, rfl⟩ | ⟨rfl, rfl, rfl⟩ | ⟨rfl, rfl, rfl⟩ | ⟨rfl, rfl, rfl⟩ | ⟨rfl, rfl, rfl⟩ <;> decide
  | @place c b _ hc hp _ _ =>
    refine ⟨by simp, Or.inr ?_⟩
    rcases hc with rfl | rfl <;> simp [places_nl hp]
  | @name c b _ hc hb _ =>
    refine ⟨by simp, Or.inr ?_⟩
    simp only [List.mem_cons, not_or]
    refine ⟨?_, fun h => start_nl (hb _ h)⟩
    rintro rfl; exact start_nl (Or.inl hc)
  | @number c b _ hc hb _ =>
    have e : ¬ Lexis.Digit '\n' := by simp [Lexis.Digit]
    refine ⟨by simp, Or.inr ?_⟩
    simp only [List.mem_cons, not_or]
    exact ⟨fun h => e (h ▸ hc), fun h => e (hb _ h)⟩
  | @single c _ _ _ _ _ _ _ _ _ _ =>
    refine ⟨by simp, ?_⟩
    by_cases h : c = '\n'
    · exact Or.inl (by rw [h])
    · exact Or.inr (by simpa using Ne.symm h)

theorem word_newline {T : TArgs} {rest : Str} {t : Tok} (h : Word T ['\n'] rest t) (rest' : Str) : Word T ['\n'] rest' t := by
  have : ∃ w, w = ['\n'] ∧ Word T w rest t := ⟨_, rfl, h⟩
  clear h
  obtain ⟨w, e, h⟩ := this
  cases h with
  | comment => exfalso; revert e; unfold commentMark; split <;> simp
  | quoted h => exfalso; cases h <;> simp at e
  | pair => simp at e
  | place h => exfalso; rcases h with rfl | rfl <;> simp at e
  | @name c b _ hc =>
    obtain ⟨rfl, -⟩ : c = '\n' ∧ b = [] := by simpa using e
    exact absurd (Or.inl hc) (start_nl (T := T))
  | @number c b _ hc =>
    obtain ⟨rfl, -⟩ : c = '\n' ∧ b = [] := by simpa using e
    revert hc; simp [Lexis.Digit]
  | @single c y _ hy =>
    obtain rfl : c = '\n' := by simpa using e
    rw [← single_sym hy]
    exact single_nl

/-- What is behind the end of the line does not matter. -/
theorem word_more {T : TArgs} {w l m m' : Str} {t : Tok} (h : Word T w (l ++ '\n' :: m) t) : Word T w (l ++ '\n' :: m') t := by
  have stops : ∀ {p : Char → Prop}, Stops p (l ++ '\n' :: m) → Stops p (l ++ '\n' :: m') := by
    intro p h c r e
    cases l with
    | nil =>
      obtain ⟨rfl, -⟩ : '\n' = c ∧ _ := by simpa using e
      exact h _ _ rfl
    | cons x l =>
      obtain ⟨rfl, -⟩ : x = c ∧ _ := by simpa using e
      exact h _ _ rfl
  cases h with
  | comment hb hr =>
    refine .comment hb ?_
    obtain ⟨r, hr⟩ := hr
    cases l with
    | nil => exact ⟨_, rfl⟩
    | cons x l =>
      obtain ⟨rfl, -⟩ : x = '\n' ∧ _ := by simpa using hr
      exact ⟨_, rfl⟩
  | quoted a b c d => exact .quoted a b c d
  | pair a => exact .pair a
  | place a b c d => exact .place a b c (stops d)
  | name a b c => exact .name a b (stops c)
  | number a b c => exact .number a b (stops c)
  | @single c y _ h0 h1 h2 h3 h4 h5 h6 h7 =>
    refine .single h0 h1 h2 h3 (fun d y' h => stops (h4 d y' h)) (fun k hk hcl => h5 k hk ?_) h6 (fun h => stops (h7 h))
    obtain ⟨b, r, e, hb⟩ := hcl
    rcases List.append_eq_append_iff.1 e with ⟨u, h8, h9⟩ | ⟨u, h8, h9⟩
    · cases u with
      | nil =>
        obtain ⟨this, -⟩ : '\n' = c ∧ m' = r := by simpa using h9
        subst this; cases hk
      | cons x u =>
        obtain ⟨rfl, -⟩ : '\n' = x ∧ _ := by simpa using h9
        exact absurd (by rw [h8]; simp) hb
    · cases u with
      | nil =>
        obtain ⟨this, -⟩ : c = '\n' ∧ r = m' := by simpa using h9
        subst this; cases hk
      | cons x u =>
        obtain ⟨rfl, -⟩ : c = x ∧ _ := by simpa using h9
        exact ⟨b, u ++ '\n' :: m, by rw [h8]; simp, hb⟩

/-- The first token of a line does not depend on the lines behind it. -/
theorem first_line {T : TArgs} {l m rest : Str} {t : Tok} (hl : '\n' ∉ l) :
    First T (l ++ '\n' :: m) t rest ↔ ∃ r, First T (l ++ ['\n']) t r ∧ rest = r ++ m := by
  have key : ∀ {w rest m : Str}, l ++ '\n' :: m = w ++ rest → w ≠ [] → (w = ['\n'] ∨ '\n' ∉ w) →
      (l = [] ∧ w = ['\n'] ∧ rest = m) ∨ ∃ l', l = w ++ l' ∧ rest = l' ++ '\n' :: m := by
    intro w rest m e h1 h2
    rcases List.append_eq_append_iff.1 e with ⟨u, h3, h4⟩ | ⟨u, h3, h4⟩
    · cases u with
      | nil => exact Or.inr ⟨[], by simpa using h3.symm, by simpa using h4.symm⟩
      | cons x u =>
        obtain ⟨rfl, -⟩ : '\n' = x ∧ _ := by simpa using h4
        rcases h2 with rfl | h2
        · left
          cases l with
          | nil =>
            obtain rfl : u = [] := by simpa using h3.symm
            exact ⟨rfl, rfl, by simpa using h4.symm⟩
          | cons y l => simp at h3
        · exact absurd (by rw [h3]; simp) h2
    · exact Or.inr ⟨u, h3, h4⟩
  constructor
  · rintro ⟨w, e, h⟩
    have hw := word_nl h
    rcases key e hw.1 hw.2 with ⟨rfl, rfl, rfl⟩ | ⟨l', rfl, rfl⟩
    · exact ⟨[], ⟨['\n'], rfl, word_newline h _⟩, by simp⟩
    · exact ⟨l' ++ ['\n'], ⟨w, by simp, word_more h⟩, by simp⟩
  · rintro ⟨r, ⟨w, e, h⟩, rfl⟩
    have hw := word_nl h
    rcases key e hw.1 hw.2 with ⟨rfl, rfl, rfl⟩ | ⟨l', rfl, rfl⟩
    · exact ⟨['\n'], by simp, word_newline h _⟩
    · exact ⟨w, by simp, by simpa using word_more (m' := m) h⟩

theorem bad_line {l m : Str} : Bad (l ++ '\n' :: m) ↔ Bad (l ++ ['\n']) := by
  have key : ∀ {m m' : Str}, Bad (l ++ '\n' :: m) → Bad (l ++ '\n' :: m') := by
    rintro m m' ⟨c, p, b, r, e, hc, hp, hb, d, r', rfl, hd⟩
    have hn : '\n' ∉ c :: (p ++ '{' :: b) := by
      simp only [List.mem_cons, List.mem_append, not_or]
      refine ⟨by rcases hc with rfl | rfl <;> decide, places_nl hp, by decide, fun h => (hb _ h).2.2 rfl⟩
    have e' : l ++ '\n' :: m = (c :: (p ++ '{' :: b)) ++ d :: r' := by rw [e]; simp
    rcases List.append_eq_append_iff.1 e' with ⟨u, h3, h4⟩ | ⟨u, h3, h4⟩
    · cases u with
      | nil =>
        refine ⟨c, p, b, '\n' :: m', ?_, hc, hp, hb, _, _, rfl, Or.inr rfl⟩
        have : l = c :: (p ++ '{' :: b) := by simpa using h3.symm
        rw [this]; simp
      | cons x u =>
        obtain ⟨rfl, -⟩ : '\n' = x ∧ _ := by simpa using h4
        exact absurd (by rw [h3]; simp) hn
    · cases u with
      | nil =>
        refine ⟨c, p, b, '\n' :: m', ?_, hc, hp, hb, _, _, rfl, Or.inr rfl⟩
        rw [h3]; simp
      | cons x u =>
        obtain ⟨rfl, -⟩ : d = x ∧ _ := by simpa using h4
        exact ⟨c, p, b, d :: (u ++ '\n' :: m'), by rw [h3]; simp, hc, hp, hb, _, _, rfl, hd⟩
  exact ⟨key, key⟩

end Ringing.Siril
