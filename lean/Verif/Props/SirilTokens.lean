import Verif.Lemmas.SirilTokens4
/-
C70: gsiril splits its input into tokens according to the lexical rules of Spec/SirilTokens.lean.
-/
namespace Ringing.Siril
open Lexis

theorem exists_ended (text : Str) : ∃ s, Ended text s := by
  by_cases h : text = [] ∨ ∃ l, text = l ++ ['\n']
  · exact ⟨text, Or.inl ⟨rfl, h⟩⟩
  · simp only [not_or] at h
    exact ⟨text ++ ['\n'], Or.inr ⟨rfl, h.1, h.2⟩⟩

/-- **C70.** The input is read as the tokens `ts` exactly if it consists of them by the lexical rules. -/
theorem C70_reads (T : TArgs) {text s : Str} (h : Ended text s) (ts : List Tok) : tokensC T text = (ts, .ok ()) ↔ Text T s ts := by
  obtain ⟨hf, ⟨us, e, hu⟩ | ⟨us, e, hu⟩⟩ := tokens_cases T h
  · rw [e]
    constructor
    · intro h; cases h; exact hu
    · intro h; rw [text_unique hf hu h]
  · rw [e]
    constructor
    · intro h; cases h
    · intro h; exact (text_stuck hf h hu).elim

/-- **C70.** Reading fails exactly if after some tokens there is place notation with a brace that is not closed on the same line before another
one is opened; the tokens before it have been read, and the exception is always the same. -/
theorem C70_rejects (T : TArgs) {text s : Str} (h : Ended text s) (ts : List Tok) (e : Err) :
    tokensC T text = (ts, .throw e) ↔ e = .bellInvalid ∧ Stuck T s ts := by
  obtain ⟨hf, ⟨us, e', hu⟩ | ⟨us, e', hu⟩⟩ := tokens_cases T h
  · rw [e']
    constructor
    · intro h; cases h
    · rintro ⟨-, h⟩; exact (text_stuck hf hu h).elim
  · rw [e']
    constructor
    · intro h; cases h; exact ⟨rfl, hu⟩
    · rintro ⟨rfl, h⟩; rw [stuck_unique hf hu h]

/-- **C70.** Reading ends for every input, with one of the two. -/
theorem C70_total (T : TArgs) (text : Str) :
    ∃ ts, tokensC T text = (ts, .ok ()) ∨ tokensC T text = (ts, .throw .bellInvalid) := by
  obtain ⟨s, h⟩ := exists_ended text
  obtain ⟨-, ⟨us, e, -⟩ | ⟨us, e, -⟩⟩ := tokens_cases T h
  · exact ⟨us, Or.inl e⟩
  · exact ⟨us, Or.inr e⟩

/-- **C70.** The lexical rules allow one reading only. -/
theorem C70_unique {T : TArgs} {text s : Str} (h : Ended text s) {ts ts' : List Tok} (h1 : Text T s ts) (h2 : Text T s ts') : ts = ts' :=
  text_unique (tokens_cases T h).1 h1 h2

/-- **C70.** A line is read without regard to the others: if the first line can be read, then the tokens of the text are its tokens and those of
the remaining lines. -/
theorem C70_lines (T : TArgs) {l m : Str} {ts : List Tok} (hl : '\n' ∉ l) (h : tokensC T (l ++ ['\n']) = (ts, .ok ())) :
    tokensC T (l ++ '\n' :: m) = (ts ++ (tokensC T m).1, (tokensC T m).2) := by
  have h0 : Ended (l ++ ['\n']) (l ++ ['\n']) := Or.inl ⟨rfl, Or.inr ⟨_, rfl⟩⟩
  have h1 : ∀ m s, Ended m s → Ended (l ++ '\n' :: m) (l ++ '\n' :: s) := by
    rintro m s (⟨rfl, rfl | ⟨x, rfl⟩⟩ | ⟨rfl, h2, h3⟩)
    · exact h0
    · exact Or.inl ⟨rfl, Or.inr ⟨l ++ '\n' :: x, by simp⟩⟩
    · refine Or.inr ⟨by simp, by simp, fun ⟨x, hx⟩ => ?_⟩
      have hf : Full ((l ++ ['\n']) ++ m) := Or.inr ⟨x, by simpa using hx⟩
      rcases hf.suffix with h | h
      · exact h2 h
      · exact h3 h
  have ht := (C70_reads T h0 ts).1 h
  have hlt : (∀ m us, Text T m us → Text T (l ++ '\n' :: m) (ts ++ us)) ∧ ∀ m us, Stuck T m us → Stuck T (l ++ '\n' :: m) (ts ++ us) := by
    rcases line_cases (T := T) l.length l (l.length + 2) le_rfl le_rfl hl with ⟨ts', -, h3, h4⟩ | ⟨ts', -, h3⟩
    · have : ts = ts' := by
        have := h3 [] [] .nil
        rw [List.append_nil] at this
        exact text_unique (Or.inr ⟨_, rfl⟩) ht this
      subst this; exact ⟨h3, h4⟩
    · exact (text_stuck (Or.inr ⟨_, rfl⟩) ht (h3 [])).elim
  obtain ⟨s, hs⟩ := exists_ended m
  obtain ⟨-, ⟨us, e, hu⟩ | ⟨us, e, hu⟩⟩ := tokens_cases T hs
  · rw [e]; exact (C70_reads T (h1 m s hs) _).2 (hlt.1 _ _ hu)
  · rw [e]; exact (C70_rejects T (h1 m s hs) _ _).2 ⟨rfl, hlt.2 _ _ hu⟩

theorem clean_word {T : TArgs} {w : Str} {t : Tok} (h : Clean T w t) {g : Char} (hg : Blank g ∨ g = '\n') (r : Str) : Word T w (g :: r) t := by
  have s1 : Stops (fun d => PlaceChar d ∨ d = '{') (g :: r) := by
    rintro c r e; cases e
    rcases hg with (rfl | rfl | rfl | rfl | rfl) | rfl <;> simp [PlaceChar, Letter, Lexis.Digit]
  have s2 : Stops (NamePart T) (g :: r) := by
    rintro c r e; cases e
    rcases hg with (rfl | rfl | rfl | rfl | rfl) | rfl <;> simp [NamePart, NameStart, Letter, Lexis.Digit]
  have s3 : Stops Lexis.Digit (g :: r) := by
    rintro c r e; cases e
    rcases hg with (rfl | rfl | rfl | rfl | rfl) | rfl <;> simp [Lexis.Digit]
  cases h with
  | quoted a b c d => exact .quoted a b c d
  | pair a => exact .pair a
  | place a b c => exact .place a b c s1
  | name a b => exact .name a b s2
  | number a b => exact .number a b s3
  | @single c y h h1 h2 =>
    have hg' : ∀ d y', (c, d, y') ∈ pairs → g ≠ d := by
      intro d y' hp
      simp only [pairs, List.mem_cons, Prod.mk.injEq, List.not_mem_nil, or_false] at hp
      rcases hp with ⟨-, rfl, -⟩ | ⟨-, rfl, -⟩ | ⟨-, rfl, -⟩ | ⟨-, rfl, -⟩ | ⟨-, rfl, -⟩ | ⟨-, rfl, -⟩ | ⟨-, rfl, -⟩ |
        ⟨-, rfl, -⟩ | ⟨-, rfl, -⟩ | ⟨-, rfl, -⟩ | ⟨-, rfl, -⟩ | ⟨-, rfl, -⟩ | ⟨-, rfl, -⟩ <;>
        (rcases hg with (rfl | rfl | rfl | rfl | rfl) | rfl <;> decide)
    have h0 := h
    simp only [singles, List.mem_cons, Prod.mk.injEq, List.not_mem_nil, or_false] at h
    refine .single (Or.inl h0) ?_ ?_ ?_ (fun d y' hp => by rintro x r e rfl; cases e; exact hg' _ _ hp rfl) ?_ (fun _ => h1) (fun _ => s1)
    · rcases h with ⟨rfl, -⟩ | ⟨rfl, -⟩ | ⟨rfl, -⟩ | ⟨rfl, -⟩ | ⟨rfl, -⟩ | ⟨rfl, -⟩ | ⟨rfl, -⟩ | ⟨rfl, -⟩ | ⟨rfl, -⟩ | ⟨rfl, -⟩ |
        ⟨rfl, -⟩ | ⟨rfl, -⟩ | ⟨rfl, -⟩ | ⟨rfl, -⟩ | ⟨rfl, -⟩ | ⟨rfl, -⟩ | ⟨rfl, -⟩ | ⟨rfl, -⟩ | ⟨rfl, -⟩ | ⟨rfl, -⟩ |
        ⟨rfl, -⟩ | ⟨rfl, -⟩ | ⟨rfl, -⟩ <;> simp [NameStart, Letter]
    · rcases h with ⟨rfl, -⟩ | ⟨rfl, -⟩ | ⟨rfl, -⟩ | ⟨rfl, -⟩ | ⟨rfl, -⟩ | ⟨rfl, -⟩ | ⟨rfl, -⟩ | ⟨rfl, -⟩ | ⟨rfl, -⟩ | ⟨rfl, -⟩ |
        ⟨rfl, -⟩ | ⟨rfl, -⟩ | ⟨rfl, -⟩ | ⟨rfl, -⟩ | ⟨rfl, -⟩ | ⟨rfl, -⟩ | ⟨rfl, -⟩ | ⟨rfl, -⟩ | ⟨rfl, -⟩ | ⟨rfl, -⟩ |
        ⟨rfl, -⟩ | ⟨rfl, -⟩ | ⟨rfl, -⟩ <;> simp [Lexis.Digit]
    · rcases h with ⟨rfl, -⟩ | ⟨rfl, -⟩ | ⟨rfl, -⟩ | ⟨rfl, -⟩ | ⟨rfl, -⟩ | ⟨rfl, -⟩ | ⟨rfl, -⟩ | ⟨rfl, -⟩ | ⟨rfl, -⟩ | ⟨rfl, -⟩ |
        ⟨rfl, -⟩ | ⟨rfl, -⟩ | ⟨rfl, -⟩ | ⟨rfl, -⟩ | ⟨rfl, -⟩ | ⟨rfl, -⟩ | ⟨rfl, -⟩ | ⟨rfl, -⟩ | ⟨rfl, -⟩ | ⟨rfl, -⟩ |
        ⟨rfl, -⟩ | ⟨rfl, -⟩ | ⟨rfl, -⟩ <;> simp [Blank]
    · intro k hk
      cases hk with
      | transp => simp at h
      | string => simp at h
      | regex => exact absurd rfl h1

theorem text_blanks {T : TArgs} {g s : Str} {ts : List Tok} (hg : ∀ c ∈ g, Blank c) (h : Text T s ts) : Text T (g ++ s) ts := by
  induction g with
  | nil => exact h
  | cons c g ih => exact .blank (hg c (by simp)) (ih fun d hd => hg d (by simp [hd]))

theorem words_text {T : TArgs} {items : List (Str × Tok × Str)} {tail : Str} {us : List Tok}
    (h : ∀ i ∈ items, Clean T i.1 i.2.1 ∧ (∀ c ∈ i.2.2, Blank c)) (hne : ∀ i ∈ items, i.2.2 ≠ []) (ht : Text T tail us) :
    Text T ((items.flatMap fun i => i.1 ++ i.2.2) ++ tail) (items.map (·.2.1) ++ us) := by
  induction items with
  | nil => exact ht
  | cons i items ih =>
    obtain ⟨w, t, g⟩ := i
    obtain ⟨h1, h2⟩ := h _ (List.mem_cons_self)
    have h3 := hne _ (List.mem_cons_self)
    have := ih (fun i hi => h i (by simp [hi])) (fun i hi => hne i (by simp [hi]))
    cases g with
    | nil => exact absurd rfl h3
    | cons c g =>
      refine .token (rest := (c :: g) ++ ((items.flatMap fun i => i.1 ++ i.2.2) ++ tail)) ⟨w, by simp, ?_⟩ (text_blanks h2 this)
      exact clean_word h1 (Or.inl (h2 c (by simp))) _

/-- **C70.** Words with blanks between them are read as written, however many blanks there are (spaces, tabs, carriage returns, ...). -/
theorem C70_words (T : TArgs) {gap : Str} {items : List (Str × Tok × Str)} (hg : ∀ c ∈ gap, Blank c)
    (h : ∀ i ∈ items, Clean T i.1 i.2.1 ∧ i.2.2 ≠ [] ∧ (∀ c ∈ i.2.2, Blank c)) (eol : Str) (he : eol = ['\n'] ∨ (eol = [] ∧ items ≠ [])) :
    tokensC T (written gap items ++ eol) = (items.map (·.2.1) ++ [.sym .newLine], .ok ()) := by
  have ht : Text T (written gap items ++ ['\n']) (items.map (·.2.1) ++ [.sym .newLine]) := by
    rw [written, List.append_assoc]
    exact text_blanks hg (words_text (fun i hi => ⟨(h i hi).1, (h i hi).2.2⟩) (fun i hi => (h i hi).2.1)
      (.token ⟨['\n'], rfl, single_nl⟩ .nil))
  refine (C70_reads T (s := written gap items ++ ['\n']) ?_ _).2 ht
  rcases he with rfl | ⟨rfl, he⟩
  · exact Or.inl ⟨rfl, Or.inr ⟨_, rfl⟩⟩
  · right
    rw [List.append_nil]
    have hlast : ∃ x c, written gap items = x ++ [c] ∧ Blank c := by
      rcases List.eq_nil_or_concat items with h0 | ⟨is, i, rfl⟩
      · exact absurd h0 he
      · obtain ⟨-, h1, h2⟩ := h i (by simp)
        rcases List.eq_nil_or_concat i.2.2 with h0 | ⟨g, c, e⟩
        · exact absurd h0 h1
        · rw [List.concat_eq_append] at e
          exact ⟨written gap is ++ i.1 ++ g, c, by simp [written, e], h2 c (by rw [e]; simp)⟩
    obtain ⟨x, c, e, hc⟩ := hlast
    refine ⟨rfl, by rw [e]; simp, ?_⟩
    rintro ⟨l, hl⟩
    rw [e] at hl
    have := (List.append_inj' hl rfl).2
    exact blank_nl hc (by simpa using this)

/-- **C70.** A comment at the end of a line changes nothing but to be there. -/
theorem C70_comment (T : TArgs) {gap : Str} {items : List (Str × Tok × Str)} (hg : ∀ c ∈ gap, Blank c)
    (h : ∀ i ∈ items, Clean T i.1 i.2.1 ∧ i.2.2 ≠ [] ∧ (∀ c ∈ i.2.2, Blank c)) (remark : Str) (hr : '\n' ∉ remark) :
    tokensC T (written gap items ++ commentMark T ++ remark ++ ['\n']) = (items.map (·.2.1) ++ [.sym .comment, .sym .newLine], .ok ()) := by
  refine (C70_reads T (Or.inl ⟨rfl, Or.inr ⟨_, rfl⟩⟩) _).2 ?_
  rw [written]
  simp only [List.append_assoc]
  refine text_blanks hg (words_text (fun i hi => ⟨(h i hi).1, (h i hi).2.2⟩) (fun i hi => (h i hi).2.1) ?_)
  refine .token (rest := ['\n']) ⟨commentMark T ++ remark, by simp, .comment hr ⟨[], rfl⟩⟩ ?_
  exact .token ⟨['\n'], rfl, single_nl⟩ .nil

/-- **C70, an example:** `x = 3 * &-1-1, "a b"` -/
theorem C70_example : tokensC {} "x =  3 * &-1-{2 + 3} , \"a b\"\n 'q'".toList =
    ([.name "x".toList, .sym .assignment, .num "3".toList, .sym .times, .lit .pn "&-1-{2 + 3}".toList, .sym .comma, .lit .string "a b".toList,
      .sym .newLine, .lit .transp "q".toList, .sym .newLine], .ok ()) := by decide +kernel

/-- **C70, finding.** A sum without a blank before the second summand is no sum: `a+1` is `a` and the place notation `+1`, and `a&b` is `a` and the
place notation `&b`. -/
theorem C70_sum_finding (T : TArgs) {a c : Char} {b d rest : Str} (ha : NameStart T a) (hb : ∀ x ∈ b, NamePart T x)
    (hc : c = '+' ∨ c = '&') (hd : Places d) (hne : d ≠ []) (hr : Stops (fun d => PlaceChar d ∨ d = '{') rest) (hm : ¬ NamePart T c) :
    ∃ n, First T (a :: b ++ (c :: d) ++ rest) (.name n) (c :: d ++ rest) ∧ First T (c :: d ++ rest) (.lit .pn (c :: d)) rest := by
  refine ⟨_, ⟨a :: b, by simp, .name ha hb ?_⟩, ⟨c :: d, rfl, .place (by tauto) hd hne hr⟩⟩
  rintro x r e
  have : c = x := (List.cons.inj e).1
  exact this ▸ hm

/-- **C70, finding.** Two divisions on one line are read as a pattern between them: `6/2/3` is the number 6, the pattern `2` and the number 3. -/
theorem C70_divisions_finding (T : TArgs) (hm : T.msiril = false) {b rest : Str} (hb : b ≠ []) (h1 : '/' ∉ b) (h2 : '\n' ∉ b) :
    First T ('/' :: (b ++ '/' :: rest)) (.lit .regex b) rest ∧
    tokensC {} "6/2/3".toList = ([.num "6".toList, .lit .regex "2".toList, .num "3".toList, .sym .newLine], .ok ()) := by
  refine ⟨⟨'/' :: (b ++ ['/']), by simp, .quoted (.regex hm) h1 h2 fun _ => hb⟩, by decide +kernel⟩

/-- **C70, finding.** A quote that is not closed on its line is a token that no command allows, and what follows it is read as if it had not been
there. -/
theorem C70_quote_finding (T : TArgs) {q : Char} (hq : q = '\'' ∨ q = '"') {b r : Str} (h1 : q ∉ b) :
    First T (q :: (b ++ '\n' :: r)) (.sym .other) (b ++ '\n' :: r) := by
  refine ⟨[q], rfl, .single (Or.inr ⟨?_, rfl⟩) ?_ ?_ ?_ ?_ ?_ ?_ ?_⟩
  · rcases hq with rfl | rfl <;> simp [singles]
  · rcases hq with rfl | rfl <;> simp [NameStart, Letter]
  · rcases hq with rfl | rfl <;> simp [Lexis.Digit]
  · rcases hq with rfl | rfl <;> simp [Blank]
  · rcases hq with rfl | rfl <;> simp [pairs]
  · rintro k - ⟨b', r', e, hb⟩
    rcases List.append_eq_append_iff.1 e with ⟨u, h3, h4⟩ | ⟨u, h3, h4⟩
    · cases u with
      | nil =>
        have : '\n' = q := (List.cons.inj h4).1
        rcases hq with rfl | rfl <;> revert this <;> decide
      | cons x u =>
        obtain ⟨rfl, -⟩ := List.cons.inj h4
        exact hb (by rw [h3]; simp)
    · cases u with
      | nil =>
        have : q = '\n' := (List.cons.inj h4).1
        rcases hq with rfl | rfl <;> revert this <;> decide
      | cons x u =>
        obtain ⟨rfl, -⟩ := List.cons.inj h4
        exact h1 (by rw [h3]; simp)
  · rcases hq with rfl | rfl <;> simp
  · rcases hq with rfl | rfl <;> simp

/-- **C70, finding.** Braces within braces in place notation are never read, closed or not. -/
theorem C70_nested_finding (T : TArgs) {text : Str} {b r : Str} (hb : Inside b) (ht : Ended text ('&' :: '{' :: (b ++ '{' :: r))) :
    tokensC T text = ([], .throw .bellInvalid) :=
  (C70_rejects T ht _ _).2 ⟨rfl, .here ⟨'&', [], b, _, rfl, Or.inl rfl, .nil, hb, _, _, rfl, Or.inl rfl⟩⟩

/-- The hypothesis of the finding is met by a text in which all braces are closed. -/
example : Inside ['a'] ∧ Ended "&{a{b}c}\n".toList ('&' :: '{' :: (['a'] ++ '{' :: "b}c}\n".toList)) :=
  ⟨by simp [Inside], Or.inl ⟨rfl, Or.inr ⟨"&{a{b}c}".toList, rfl⟩⟩⟩

end Ringing.Siril
