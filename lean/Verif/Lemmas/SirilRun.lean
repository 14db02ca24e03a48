import Verif.Spec.SirilRun
import Verif.Props.SirilStatements
/-
Running programs of gsiril.
-/
namespace Ringing.Siril
open Grammar Running

theorem next_nil {ms : Bool} {ts rest : List Tok} (h : Next ms ts [] rest) : ∀ t ∈ ts, Separator t ∨ Space t := by
  have hk : ∀ {blanks c rest : List Tok}, Piece ms blanks c rest → kept c = [] → c = [] := by
    intro blanks c rest hp h
    cases c with
    | nil => rfl
    | cons t c =>
      have := (hp.first t rfl).2
      unfold kept at h
      rw [List.filter_cons_of_pos (by simpa using this)] at h
      cases h
  have key : ∀ {sofar us cmd rest}, Completes ms sofar us cmd rest → cmd = [] → ∀ t ∈ us, Separator t ∨ Space t := by
    intro sofar us cmd rest h
    cases h with
    | done h1 h2 =>
      intro he
      have := hk h1 (List.append_eq_nil_iff.1 he).2
      subst this
      have := h1.empty rfl
      subst this
      simpa using h1.blanks
    | @more _ blanks c rest' _ _ h1 h2 h3 h4 =>
      -- what has been read stays in the command
      have grow : ∀ {sofar us cmd rest}, Completes ms sofar us cmd rest → sofar <+: cmd := by
        intro sofar us cmd rest h
        induction h with
        | done => exact List.prefix_append _ _
        | more _ _ _ _ ih => exact (List.prefix_append _ _).trans ih
        | append => exact List.prefix_append _ _
      intro he
      subst he
      have := List.prefix_nil.1 (grow h4)
      rw [this] at h2
      obtain ⟨l, h | h⟩ := h2 <;> simp at h
    | append h1 h2 => intro he; rw [h2] at he; simp at he
  exact key h rfl

/-- `parse` on a good stream. -/
theorem readStmt_good (A : RArgs) (bells : Int) (ts : List Tok) :
    readStmt A bells ⟨ts, false⟩ = ((parseC (readingOf A bells) ts).1, ⟨(parseC (readingOf A bells) ts).2, false⟩) := by
  unfold readStmt readingOf
  simp

theorem begins_read {A : RArgs} {b : Int} {ts rest : List Tok} {s : Stmt} (h : Begins A b ts s rest) :
    readStmt A b ⟨ts, false⟩ = (.ok s, ⟨rest, false⟩) := by
  obtain ⟨cmds, h1, h2⟩ := h
  have := C69_statement (A := readingOf A b) h1 h2
  rw [readStmt_good, this]

theorem over_read {A : RArgs} {b : Int} {ts : List Tok} (h : Over A b ts) : ∃ src, readStmt A b ⟨ts, false⟩ = (.ok .eof, src) := by
  rcases h with h | ⟨rest, h⟩
  · rw [readStmt_good, C69_end]
    · exact ⟨_, rfl⟩
    · intro t ht
      rcases h t ht with (h | h) | h | h
      · exact .inl h
      · exact .inr (.inl h)
      · exact .inl h
      · exact .inr (.inr h)
  · exact ⟨_, begins_read h⟩

theorem begins_unique {A : RArgs} {b : Int} {ts rest rest' : List Tok} {s s' : Stmt} (h : Begins A b ts s rest) (h' : Begins A b ts s' rest') :
    s = s' ∧ rest = rest' := by
  have := (begins_read h).symm.trans (begins_read h')
  cases this
  exact ⟨rfl, rfl⟩

/-- The parser with readers of literals that always answer. -/
theorem read_cases {A : RArgs} {b : Int} {ts : List Tok} (hL : ReadersEnd (A.lits b)) (ht : AllTame A.T.msiril ts) :
    (Over A b ts ∧ ∃ src, readStmt A b ⟨ts, false⟩ = (.ok .eof, src)) ∨
    (∃ s rest, s ≠ .eof ∧ Begins A b ts s rest ∧ readStmt A b ⟨ts, false⟩ = (.ok s, ⟨rest, false⟩)) ∨
    (¬ Over A b ts ∧ (¬ ∃ s rest, Begins A b ts s rest) ∧ ∃ x rest, readStmt A b ⟨ts, false⟩ = (.throw x, ⟨rest, false⟩)) := by
  obtain ⟨rest, h1, -⟩ := C69_total (A := readingOf A b) ⟨hL.1, hL.2, hL.3⟩ ts
  rcases h1 with ⟨s, h1⟩ | ⟨x, h1⟩
  · have hr := readStmt_good A b ts
    rw [h1] at hr
    rcases C69_only (A := readingOf A b) ht h1 with ⟨rfl, rfl, h2⟩ | ⟨cmds, h2, h3⟩
    · exact .inl ⟨.inl (next_nil h2), _, hr⟩
    · by_cases he : s = .eof
      · subst he; exact .inl ⟨.inr ⟨rest, cmds, h2, h3⟩, _, hr⟩
      · exact .inr (.inl ⟨s, rest, he, ⟨cmds, h2, h3⟩, hr⟩)
  · have hr := readStmt_good A b ts
    rw [h1] at hr
    refine .inr (.inr ⟨?_, ?_, x, rest, hr⟩)
    · intro h
      obtain ⟨src, h⟩ := over_read h
      rw [hr] at h; cases h
    · rintro ⟨s, rest', h⟩
      have h := begins_read h
      rw [hr] at h; cases h

theorem tame_begins {A : RArgs} {b : Int} {ts rest : List Tok} {s : Stmt} (ht : AllTame A.T.msiril ts) (h : Begins A b ts s rest) :
    AllTame A.T.msiril rest := by
  obtain ⟨cmds, h1, -⟩ := h
  intro cs r hs c hc
  exact ht (cmds ++ cs) r (splits_append h1 hs) c (by simp [hc])

theorem begins_length {A : RArgs} {b : Int} {ts rest : List Tok} {s : Stmt} (h : Begins A b ts s rest) : ts ≠ [] → rest.length < ts.length := by
  obtain ⟨cmds, h1, h2⟩ := h
  intro hne
  cases h1 with
  | nil => cases h2
  | cons hn hs =>
    have len : ∀ {us cs r}, Splits A.T.msiril us cs r → r.length ≤ us.length := by
      intro us cs r hs
      induction hs with
      | nil => simp
      | cons hn _ ih => exact ih.trans (nextCommand_rest (nextCommand_of hn)).1.length_le
    have h3 := len hs
    have h4 := (nextCommand_rest (nextCommand_of hn))
    have := h4.2 hne
    omega

end Ringing.Siril
