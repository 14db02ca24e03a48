import Verif.Lemmas.SirilStatements4
/-! C69: a stream of tokens is split into commands and statements as the grammar says. -/
namespace Ringing.Siril
open Grammar Spec

/-! ### Commands -/

/-- The next command of a stream is the one the specification says, and no other. -/
theorem C69_command (ms : Bool) (ts cmd rest : List Tok) : nextCommand ms ts = (.ok cmd, rest) ↔ Next ms ts cmd rest :=
  ⟨nextCommand_inv, nextCommand_of⟩

/-- If there is none the answer is an exception; something was read all the same, and reading goes on behind it. -/
theorem C69_command_error (ms : Bool) (ts : List Tok) (h : ¬ ∃ cmd rest, Next ms ts cmd rest) :
    ∃ rest, nextCommand ms ts = (.throw .runtimeError, rest) ∧ rest <:+ ts ∧ rest.length < ts.length := by
  rcases nextCommand_cases ms ts with ⟨cmd, rest, h1, h2⟩ | ⟨rest, h1⟩
  · exact absurd ⟨cmd, rest, h2⟩ h
  · obtain ⟨h2, h3⟩ := nextCommand_rest h1
    refine ⟨rest, h1, h2, h3 ?_⟩
    rintro rfl
    cases h1

/-- Empty lines, semicolons and comments before a command change nothing. -/
theorem C69_blanks {ms : Bool} {blanks ts cmd rest : List Tok} (hb : ∀ t ∈ blanks, t = .sym .newLine ∨ t = .sym .semicolon ∨ t = .sym .comment)
    (h : nextCommand ms ts = (.ok cmd, rest)) : nextCommand ms (blanks ++ ts) = (.ok cmd, rest) := by
  have hb' : ∀ t ∈ blanks, Separator t ∨ Space t := fun t ht => by
    rcases hb t ht with h | h | h
    · exact .inl (.inl h)
    · exact .inl (.inr h)
    · exact .inr (.inr h)
  have hp : ∀ {b c r}, Piece ms b c r → Piece ms (blanks ++ b) c r := fun h =>
    ⟨fun t ht => (List.mem_append.1 ht).elim (hb' t) (h.blanks t), h.first, h.line, h.allowed, h.closed, h.last, h.empty⟩
  refine nextCommand_of ?_
  have key : ∀ {sofar ts cmd rest}, Completes ms sofar ts cmd rest → Completes ms sofar (blanks ++ ts) cmd rest := by
    intro sofar ts cmd rest h
    cases h with
    | done h1 h2 => rw [← List.append_assoc, ← List.append_assoc]; exact .done (hp h1) h2
    | more h1 h2 h3 h4 => rw [← List.append_assoc, ← List.append_assoc]; exact .more (hp h1) h2 h3 h4
    | append h1 h2 => rw [← List.append_assoc, ← List.append_assoc]; exact .append (hp h1) h2
  exact key (nextCommand_inv h)

/-! ### Statements -/

/-- Commands that say a statement are read as that statement, whatever follows them, and nothing of what follows is read. -/
theorem C69_statement {A : PArgs} {s : Stmt} {ts rest : List Tok} {cmds : List (List Tok)} (hs : Splits A.msiril ts cmds rest)
    (h : Says A (.statement s) cmds) : parseC A ts = (.ok s, rest) := by
  cases hs with
  | nil => cases h
  | @cons _ cmd ts' cmds _ hn hs =>
    unfold parseC
    rw [nextCommand_of hn]
    dsimp only
    refine says_claim h cmd cmds rfl _ _ _ ?_ hs
    -- every command takes a token of the stream, but for empty ones, and these are at the end
    have len : ∀ {us cs r}, Splits A.msiril us cs r → (∀ c ∈ cs, c ≠ []) → cs.length ≤ us.length := by
      intro us cs r hs
      induction hs with
      | nil => simp
      | @cons us c us' cs r hn _ ih =>
        intro hc
        have h1 := nextCommand_rest (nextCommand_of hn)
        have h2 := ih fun c' h' => hc c' (by simp [h'])
        have h3 := h1.2 fun e => by
          subst e
          have := nextCommand_of hn
          cases this
          exact hc [] (by simp) rfl
        simp only [List.length_cons]
        omega
    have hne : ∀ f cs, Says A f cs → ∀ c ∈ cs, c ≠ [] := by
      intro f cs h
      induction h with
      | line h => simp only [List.mem_singleton, forall_eq]; exact (says_command (.line h)).1
      | ifs _ _ ih => simpa using ih
      | foreach _ _ ih => simp only [List.mem_cons, List.mem_append, List.not_mem_nil, or_false]; rintro c (rfl | h | rfl); · simp
                          · exact ih c h
                          · simp
      | endif _ ih => simp only [List.mem_append, List.mem_cons, List.not_mem_nil, or_false]; rintro c (h | rfl); · exact ih c h
                      · simp
      | elseif _ _ _ ih ih' => simp only [List.mem_append, List.mem_cons]; rintro c (h | rfl | h); · exact ih c h
                               · simp
                               · exact ih' c h
      | «else» _ _ ih ih' => simp only [List.mem_append, List.mem_cons]; rintro c (h | rfl | h); · exact ih c h
                             · simp
                             · exact ih' c h
      | ifNil => simp
      | ifCons _ _ _ ih ih' => intro c hc; exact (List.mem_append.1 hc).elim (ih c) (ih' c)
      | forNil => simp
      | forCons _ _ ih ih' => intro c hc; exact (List.mem_append.1 hc).elim (ih c) (ih' c)
    have h1 := len hs fun c hc => hne _ _ h c (by simp [hc])
    have h2 := (nextCommand_rest (nextCommand_of hn)).1.length_le
    omega

/-- Where there is no command any more the stream is at its end. -/
theorem C69_end {A : PArgs} {ts : List Tok} (h : ∀ t ∈ ts, t = .sym .newLine ∨ t = .sym .semicolon ∨ t = .sym .comment) :
    parseC A ts = (.ok .eof, []) := by
  have := C69_blanks (ms := A.msiril) (ts := []) (cmd := []) (rest := []) h rfl
  rw [List.append_nil] at this
  unfold parseC
  rw [this]
  rfl

/-- Nothing else is read: a statement that is read is the end of the stream, or it is what the commands say that were read for it. -/
theorem C69_only {A : PArgs} {s : Stmt} {ts rest : List Tok} (hd : AllTame A.msiril ts) (h : parseC A ts = (.ok s, rest)) :
    (s = .eof ∧ rest = [] ∧ Next A.msiril ts [] []) ∨
      ∃ cmds, Splits A.msiril ts cmds rest ∧ Says A (.statement s) cmds := by
  unfold parseC at h
  rcases nextCommand_cases A.msiril ts with ⟨cmd, rest', h1, h2⟩ | ⟨rest', h1⟩
  · rw [h1] at h
    dsimp only at h
    by_cases hc : cmd = []
    · subst hc
      have hr := nextCommand_nil_rest h2
      subst hr
      rw [parseCommand] at h
      cases h
      exact .inl ⟨rfl, rfl, h2⟩
    · obtain ⟨ht, ha⟩ := hd.next h2
      obtain ⟨cmds, h3, h4⟩ := (parse_inv A _).1 cmd rest' s rest h hc ht ha
      exact .inr ⟨cmd :: cmds, .cons h2 h3, h4⟩
  · rw [h1] at h; cases h

/-- No two statements are said by the first commands of a stream. -/
theorem C69_unique {A : PArgs} {s s' : Stmt} {ts rest rest' : List Tok} {cmds cmds' : List (List Tok)} (h1 : Splits A.msiril ts cmds rest)
    (h2 : Splits A.msiril ts cmds' rest') (h : Says A (.statement s) cmds) (h' : Says A (.statement s') cmds') : s = s' ∧ rest = rest' := by
  have := (C69_statement h1 h).symm.trans (C69_statement h2 h')
  cases this
  exact ⟨rfl, rfl⟩

/-- The parser always answers with a statement or an exception, and unless the stream is empty it reads something of it: a loop that calls it
until the stream is at its end ends, errors or not. -/
theorem C69_total {A : PArgs} (hL : (∀ s, (∃ e, A.lits.pn s = .ok e) ∨ ∃ x, A.lits.pn s = .throw x) ∧
      (∀ s, (∃ e, A.lits.transp s = .ok e) ∨ ∃ x, A.lits.transp s = .throw x) ∧ (∀ s, (∃ e, A.lits.regex s = .ok e) ∨ ∃ x, A.lits.regex s = .throw x))
    (ts : List Tok) : ∃ rest, ((∃ s, parseC A ts = (.ok s, rest)) ∨ ∃ x, parseC A ts = (.throw x, rest)) ∧ rest <:+ ts ∧
      (ts ≠ [] → rest.length < ts.length) := by
  obtain ⟨⟨h1, h2⟩, h3⟩ := parseC_answers (A := A) ⟨hL.1, hL.2.1, hL.2.2⟩ ts
  refine ⟨(parseC A ts).2, ?_, h2, h3⟩
  rcases h1 with ⟨s, hs⟩ | ⟨e, he⟩
  · exact .inl ⟨s, by rw [← hs]⟩
  · exact .inr ⟨e, by rw [← he]⟩

/-- What no commands say is rejected. -/
theorem C69_rejects {A : PArgs} (hL : (∀ s, (∃ e, A.lits.pn s = .ok e) ∨ ∃ x, A.lits.pn s = .throw x) ∧
      (∀ s, (∃ e, A.lits.transp s = .ok e) ∨ ∃ x, A.lits.transp s = .throw x) ∧ (∀ s, (∃ e, A.lits.regex s = .ok e) ∨ ∃ x, A.lits.regex s = .throw x))
    {ts : List Tok} (hd : AllTame A.msiril ts) (he : ¬ Next A.msiril ts [] [])
    (h : ¬ ∃ s cmds rest, Splits A.msiril ts cmds rest ∧ Says A (.statement s) cmds) : ∃ x, (parseC A ts).1 = .throw x := by
  obtain ⟨rest, h1 | ⟨x, h1⟩, -⟩ := C69_total hL ts
  · obtain ⟨s, h1⟩ := h1
    rcases C69_only hd h1 with ⟨-, -, h2⟩ | ⟨cmds, h2, h3⟩
    · exact absurd h2 he
    · exact absurd ⟨s, cmds, rest, h2, h3⟩ h
  · exact ⟨x, by rw [h1]⟩

/-- The condition of these two holds if there is no `++`, `--`, `echo` and `save` at all, and numbers are small. -/
theorem C69_described {ms : Bool} {ts : List Tok} (hc : ∀ t ∈ ts, ¬ Careless t) (hn : SmallNumbers ts) : AllTame ms ts := by
  have mem : ∀ {us cmd rest}, Next ms us cmd rest → (∀ t ∈ cmd, t ∈ us) ∧ ∀ t ∈ rest, t ∈ us := by
    intro us cmd rest h
    have hr := (nextCommand_rest (nextCommand_of h)).1
    refine ⟨?_, fun t ht => hr.subset ht⟩
    have hk : ∀ {c : List Tok} {t}, t ∈ kept c → t ∈ c := fun h => List.mem_of_mem_filter h
    have key : ∀ {sofar us cmd rest}, Completes ms sofar us cmd rest → ∀ t ∈ cmd, t ∈ sofar ∨ t ∈ us := by
      intro sofar us cmd rest h
      induction h with
      | done _ _ =>
        intro t ht
        rcases List.mem_append.1 ht with h | h
        · exact .inl h
        · exact .inr (by simp [hk h])
      | more _ _ _ _ ih =>
        intro t ht
        rcases ih t ht with h | h
        · rcases List.mem_append.1 h with h | h
          · exact .inl h
          · exact .inr (by simp [hk h])
        · exact .inr (by simp [h])
      | append _ _ =>
        intro t ht
        rcases List.mem_append.1 ht with h | h
        · exact .inl h
        · exact .inr (by simp [hk h])
    intro t ht
    rcases key h t ht with h | h
    · cases h
    · exact h
  intro cmds rest hs
  have : ∀ {us cs r}, Splits ms us cs r → (∀ t ∈ us, t ∈ ts) → ∀ cmd ∈ cs, ∀ t ∈ cmd, t ∈ ts := by
    intro us cs r hs
    induction hs with
    | nil => simp
    | cons hx _ ih =>
      intro hu cmd hcmd
      rcases List.mem_cons.1 hcmd with rfl | hcmd
      · exact fun t ht => hu t ((mem hx).1 t ht)
      · exact ih (fun t ht => hu t ((mem hx).2 t ht)) cmd hcmd
  intro cmd hcmd
  have hm := this hs (fun t ht => ht) cmd hcmd
  exact ⟨.inr fun t ht => hc t (hm t (List.mem_of_mem_tail ht)), fun s hs => hn s (hm _ hs)⟩

/-! ### Findings -/

/-- `N to M rows` cannot be written: the second number is read from the word `to`, and that is rejected. -/
theorem C69_rows_range_finding (A : PArgs) (m n : Str) :
    ∃ x, command A [.num m, .name "to".toList, .num n, .name "rows".toList] = .throw x := by
  rw [command, if_pos ⟨rfl, rfl⟩]
  rcases ends_stringToInt m with ⟨v, h⟩ | ⟨x, h⟩ <;> rw [h]
  · rw [Out.ok_bind, show stringToInt "to".toList = .throw .runtimeError from by decide +kernel]
    exact ⟨_, rfl⟩
  · exact ⟨_, rfl⟩

/-- A string, a transposition or a pattern that reads `end`, `quit` or `exit` ends the program, if it is a command of its own. -/
theorem C69_end_literal_finding (A : PArgs) (k : LitKind) (ts : List Tok) :
    parseC A (.lit .string "end".toList :: .sym .newLine :: ts) = (.ok .eof, .sym .newLine :: ts) ∧
      command A [.lit k "end".toList] = .ok (.stmt .eof) := by
  refine ⟨?_, ?_⟩
  · refine C69_statement (cmds := [[.lit .string "end".toList]]) (.cons (nextCommand_inv ?_) .nil)
      (.line (.ends (.inl rfl) (.inr (.inr ⟨_, rfl⟩))))
    rfl
  · exact command_line (.ends (.inl rfl) (.inr (.inr ⟨_, rfl⟩)))

/-- `end` inside a block does not end anything when it is read: the statement that stands for the end of the program becomes a part of the
block. -/
theorem C69_end_block_finding {A : PArgs} {c : Expr} {us ts rest : List Tok} (hc : Spells A.lits 0 c us)
    (hs : Splits A.msiril ts [.name "if".toList :: us, [.name "end".toList], [.name "endif".toList]] rest) :
    parseC A ts = (.ok (.ifs [(c, [.eof])]), rest) :=
  C69_statement hs (.ifs hc (.endif (cmds := [_]) (.ifCons (cmds := []) (.line (.ends (.inl rfl) (.inl rfl)))
    (by rintro (h | h | ⟨t, ts, h⟩) <;> cases h) .ifNil)))

/-- An assignment with `.=` is no statement. -/
theorem C69_append_assign_finding {A : PArgs} {x : Str} (hx : ¬ Reserved x) (hp : x ≠ "prove".toList) (ts : List Tok) :
    command A (.name x :: .sym .appendAssign :: ts) = .throw .runtimeError := by
  unfold Reserved at hx
  simp only [not_or] at hx
  obtain ⟨h1, h2, h3, h4⟩ := hx
  rw [command_sym, keywordCommand, if_neg (fun h => hp h.1), echoMode_none h1]
  dsimp only
  rw [if_neg h2, if_neg (fun h => h3 h.1), if_neg h4]
  rfl

/-- The rest of a line with a token that is not allowed is read as a command of its own. -/
theorem C69_resume_finding {ms : Bool} {l r : List Tok} (hl : ∀ t ∈ l, Allowed ms t ∧ Plain t ∧ ¬ Separator t ∧ ¬ Space t) :
    nextCommand ms (l ++ .sym .other :: r) = (.throw .runtimeError, r) := by
  have hd : (l ++ .sym .other :: r).dropWhile (fun t => t.isSep || t.isSpace) = l ++ .sym .other :: r := by
    refine dropWhile_blanks (blanks := []) (by simp) fun t ht => ?_
    cases l with
    | nil => cases ht; simp [Separator, Grammar.Space]
    | cons u l =>
      cases ht
      exact (hl _ (by simp)).2.2
  have ho : ∀ {l : List Tok} n, (∀ t ∈ l, Allowed ms t ∧ Plain t ∧ ¬ Separator t ∧ ¬ Space t) → opened n l = n := by
    intro l n h
    induction l with
    | nil => simp
    | cons t l ih =>
      rw [opened, if_neg (h t (by simp)).2.1.1, if_neg (h t (by simp)).2.1.2]
      exact ih fun u hu => h u (by simp [hu])
  have hrun : Run ms 0 l := ⟨fun a t b e hs => absurd hs (hl t (by rw [e]; simp)).2.2.1, fun t ht _ => (hl t ht).1⟩
  unfold nextCommand
  rw [gatherAll, hd, gather_run hrun, ho 0 hl, gather_bad]
  · simp [Separator]
  · simp [Grammar.Space]
  · simp [Allowed]

/-! ### Examples -/

private def L₁ : Readers := ⟨fun s => .ok (.pn [] s), fun _ => .throw .runtimeError, fun s => .ok (.str s {})⟩
private def A₁ : PArgs := { lits := L₁ }

/-- `if a ⏎ 6 bells ; // comment ⏎ else ⏎ b = a , ⏎ a ⏎ endif ⏎ quit`: a statement of four commands, one of them on two lines. -/
private def stream : List Tok :=
  [.name "if".toList, .name "a".toList, .sym .newLine, .num "6".toList, .name "bells".toList, .sym .semicolon, .sym .comment, .sym .newLine,
    .name "else".toList, .sym .newLine, .name "b".toList, .sym .assignment, .name "a".toList, .sym .comma, .sym .newLine, .name "a".toList,
    .sym .newLine, .name "endif".toList, .sym .newLine, .name "quit".toList]

private theorem spells_a {p : Nat} (hp : p ≤ 9) : Spells A₁.lits p (.sym "a".toList) [.name "a".toList] := by
  refine spells_down (le_refl _) (.var ?_ ?_) hp
  · rintro ⟨e, he⟩; cases he
  · unfold Prefix; decide

example : parseC A₁ stream = (.ok (.ifs [(.sym "a".toList, [.bells 6]),
    (.bool true, [.define "b".toList (.list (.sym "a".toList) (.sym "a".toList))])]), [.sym .newLine, .name "quit".toList]) := by
  have h6 : Numeral "6".toList 6 := by
    refine ⟨by decide, ?_, by decide +kernel, by decide +kernel⟩
    intro c hc
    have : c = '6' := by simpa using hc
    subst this
    unfold Digit
    decide
  refine C69_statement (cmds := [[.name "if".toList, .name "a".toList], [.num "6".toList, .name "bells".toList], [.name "else".toList],
    [.name "b".toList, .sym .assignment, .name "a".toList, .sym .comma, .name "a".toList], [.name "endif".toList]]) ?_ ?_
  · exact .cons (nextCommand_inv rfl) (.cons (nextCommand_inv rfl) (.cons (nextCommand_inv rfl) (.cons (nextCommand_inv rfl)
      (.cons (nextCommand_inv rfl) .nil))))
  · refine .ifs (spells_a (by omega)) (.else (cmds := [_]) (.ifCons (cmds := []) (.line (.bells h6)) ?_ .ifNil)
      (.endif (cmds := [_]) (.ifCons (cmds := []) (.line ?_) ?_ .ifNil)))
    · rintro (h | h | ⟨t, ts, h⟩) <;> cases h
    · refine .assign .define ?_ (spells_down (by omega) (Spells.binary (p := 1) .comma (l := [_]) (spells_a (by omega)) (spells_a (by omega))) (by omega))
      rintro (⟨m, h⟩ | h | h | h) <;> cases h
    · rintro (h | h | ⟨t, ts, h⟩) <;> cases h

/-- The condition of `C69_only` holds of it. -/
example : AllTame false stream := by
  refine C69_described (by unfold stream Careless; decide) ?_
  intro s hs
  have : s = "6".toList := by simpa [stream] using hs
  subst this
  refine ⟨6, by decide, ?_, by decide +kernel, by decide +kernel⟩
  intro c hc
  have : c = '6' := by simpa using hc
  subst this
  unfold Digit
  decide

end Ringing.Siril
