import Verif.Spec.SirilStatements
import Verif.Lemmas.SirilParser5
/-
Splitting a stream of tokens into commands: `tokenise_command` of apps/gsiril/parser.cpp.
-/
namespace Ringing.Siril
open Grammar

theorem isSep_iff (t : Tok) : t.isSep = true ↔ Separator t := by
  unfold Separator
  match t with
  | .name _ | .num _ | .lit _ _ => simp [Tok.isSep]
  | .sym y => cases y <;> simp [Tok.isSep]

theorem tokSpace_iff (t : Tok) : t.isSpace = true ↔ Space t := by
  unfold Space
  match t with
  | .name _ | .num _ | .lit _ _ => simp [Tok.isSpace]
  | .sym y => cases y <;> simp [Tok.isSpace]

theorem isValid_iff (ms : Bool) (t : Tok) : t.isValid ms = true ↔ Allowed ms t := by
  unfold Allowed Modern
  match t with
  | .name _ | .num _ => simp [Tok.isValid]
  | .lit k _ => cases k <;> simp [Tok.isValid]
  | .sym y => cases y <;> simp [Tok.isValid]

theorem goesOn_iff (w : List Tok) : (w ≠ [] ∧ (w.getLast?.any Tok.binOnly) = true) ↔ GoesOn w := by
  unfold GoesOn
  rcases List.eq_nil_or_concat w with rfl | ⟨l, t, rfl⟩
  · simp
  · rw [List.concat_eq_append]
    have : ∀ {l' u}, l ++ [t] = l' ++ [u] ↔ l = l' ∧ t = u := by
      intro l' u
      constructor
      · intro h
        exact List.append_inj' h rfl |>.imp id (by simp)
      · rintro ⟨rfl, rfl⟩; rfl
    simp only [this, List.getLast?_concat, Option.any_some]
    constructor
    · rintro ⟨-, h⟩
      refine ⟨l, ?_⟩
      match t, h with
      | .sym .comma, _ => exact .inl ⟨rfl, rfl⟩
      | .sym .append, _ => exact .inr ⟨rfl, rfl⟩
    · rintro ⟨l', ⟨-, rfl⟩ | ⟨-, rfl⟩⟩ <;> simp [Tok.binOnly]

theorem opened_cons (n : Nat) (t : Tok) (ts : List Tok) :
    opened n (t :: ts) = opened (if t.opens then n + 1 else if t.closes then n - 1 else n) ts := by
  rw [opened]
  simp only [← opens_iff, ← closes_iff]

theorem opened_append (n : Nat) (a b : List Tok) : opened n (a ++ b) = opened (opened n a) b := by
  induction a generalizing n with
  | nil => simp [opened]
  | cons t a ih => rw [List.cons_append, opened, opened, ih]

@[simp] theorem opened_nil (n : Nat) : opened n [] = n := by rw [opened]

theorem kept_nil : kept [] = [] := rfl

theorem kept_cons (t : Tok) (ts : List Tok) : kept (t :: ts) = (if t.isSpace then [] else [t]) ++ kept ts := by
  unfold kept
  rw [List.filter_cons]
  by_cases h : Space t
  · rw [if_neg (by simpa using h), if_pos ((tokSpace_iff t).2 h)]; rfl
  · rw [if_pos (by simpa using h), if_neg (fun e => h ((tokSpace_iff t).1 e))]; rfl

theorem kept_append (a b : List Tok) : kept (a ++ b) = kept a ++ kept b := by
  unfold kept; rw [List.filter_append]

/-- What `gather` runs through with `n` brackets open. -/
structure Run (ms : Bool) (n : Nat) (c : List Tok) : Prop where
  line : ∀ l t r, c = l ++ t :: r → Separator t → opened n l ≠ 0
  allowed : ∀ t ∈ c, ¬ Space t → Allowed ms t

theorem run_nil (ms : Bool) (n : Nat) : Run ms n [] := ⟨fun l t r e => (by cases l <;> cases e), by simp⟩

theorem run_cons {ms : Bool} {n : Nat} {t : Tok} {c : List Tok} :
    Run ms n (t :: c) ↔ ¬ (Separator t ∧ n = 0) ∧ (¬ Space t → Allowed ms t) ∧
      Run ms (if t.opens then n + 1 else if t.closes then n - 1 else n) c := by
  constructor
  · intro h
    refine ⟨fun ⟨h1, h2⟩ => h.line [] t c rfl h1 (by simpa using h2), h.allowed t (by simp), fun l u r e hs => ?_,
      fun u hu => h.allowed u (by simp [hu])⟩
    have := h.line (t :: l) u r (by rw [e]; rfl) hs
    rwa [opened_cons] at this
  · rintro ⟨h1, h2, h3⟩
    refine ⟨fun l u r e hs => ?_, fun u hu hs => ?_⟩
    · cases l with
      | nil =>
        injection e with e1 _
        subst e1
        simpa using fun h => h1 ⟨hs, h⟩
      | cons x l =>
        injection e with e1 e2
        subst e1
        rw [opened_cons]
        exact h3.line l u r e2 hs
    · rcases List.mem_cons.1 hu with rfl | hu
      · exact h2 hs
      · exact h3.allowed u hu hs

theorem gather_run {ms : Bool} {n : Nat} {c : List Tok} (h : Run ms n c) (toks r : List Tok) :
    gather ms toks n (c ++ r) = gather ms (toks ++ kept c) (opened n c) r := by
  induction c generalizing n toks with
  | nil => simp [kept_nil]
  | cons t c ih =>
    obtain ⟨h1, h2, h3⟩ := run_cons.1 h
    rw [List.cons_append, gather, if_neg (by rw [isSep_iff]; exact h1),
      if_neg (by rw [tokSpace_iff, isValid_iff]; exact fun e => e.2 (h2 e.1)), ih h3, opened_cons, kept_cons]
    congr 1
    split <;> simp

theorem gather_stop {ms : Bool} {n : Nat} {toks r : List Tok} (h : ∀ t, r.head? = some t → Separator t ∧ n = 0) :
    gather ms toks n r = (.ok (toks, n), r) := by
  cases r with
  | nil => rfl
  | cons t r => rw [gather, if_pos (by rw [isSep_iff]; exact h t rfl)]

theorem gather_bad {ms : Bool} {n : Nat} {toks r : List Tok} {t : Tok} (h1 : ¬ (Separator t ∧ n = 0)) (h2 : ¬ Space t) (h3 : ¬ Allowed ms t) :
    gather ms toks n (t :: r) = (.throw .runtimeError, r) := by
  rw [gather, if_neg (by rw [isSep_iff]; exact h1), if_pos (by rw [tokSpace_iff, isValid_iff]; exact ⟨h2, h3⟩)]

/-- Where `gather` stops. -/
theorem run_exists (ms : Bool) (n : Nat) (ts : List Tok) : ∃ c r, ts = c ++ r ∧ Run ms n c ∧
    ((∀ t, r.head? = some t → Separator t ∧ opened n c = 0) ∨
      ∃ t r', r = t :: r' ∧ ¬ (Separator t ∧ opened n c = 0) ∧ ¬ Space t ∧ ¬ Allowed ms t) := by
  induction ts generalizing n with
  | nil => exact ⟨[], [], rfl, run_nil ms n, .inl (by simp)⟩
  | cons t ts ih =>
    by_cases h1 : Separator t ∧ n = 0
    · exact ⟨[], t :: ts, rfl, run_nil ms n, .inl (by simpa using h1)⟩
    · by_cases h2 : ¬ Space t ∧ ¬ Allowed ms t
      · exact ⟨[], t :: ts, rfl, run_nil ms n, .inr ⟨t, ts, rfl, by simpa using h1, h2⟩⟩
      · obtain ⟨c, r, e, hr, h⟩ := ih (if t.opens then n + 1 else if t.closes then n - 1 else n)
        refine ⟨t :: c, r, by rw [e]; rfl, run_cons.2 ⟨h1, fun hs => ?_, hr⟩, by rw [opened_cons]; exact h⟩
        by_contra hc
        exact h2 ⟨hs, hc⟩

/-! ### The outer loop -/

theorem dropWhile_blanks {blanks c : List Tok} (h : ∀ t ∈ blanks, Separator t ∨ Space t) (hc : ∀ t, c.head? = some t → ¬ Separator t ∧ ¬ Space t) :
    (blanks ++ c).dropWhile (fun t => t.isSep || t.isSpace) = c := by
  induction blanks with
  | nil =>
    cases c with
    | nil => rfl
    | cons t c =>
      rw [List.nil_append, List.dropWhile_cons_of_neg]
      rw [Bool.or_eq_true, isSep_iff, tokSpace_iff]
      have := hc t rfl
      tauto
  | cons t b ih =>
    rw [List.cons_append, List.dropWhile_cons_of_pos, ih fun u hu => h u (by simp [hu])]
    rw [Bool.or_eq_true, isSep_iff, tokSpace_iff]
    exact h t (by simp)

theorem blanks_exists (ts : List Tok) : ∃ blanks c, ts = blanks ++ c ∧ (∀ t ∈ blanks, Separator t ∨ Space t) ∧
    ∀ t, c.head? = some t → ¬ Separator t ∧ ¬ Space t := by
  induction ts with
  | nil => exact ⟨[], [], rfl, by simp, by simp⟩
  | cons t ts ih =>
    by_cases h : Separator t ∨ Space t
    · obtain ⟨b, c, e, h1, h2⟩ := ih
      exact ⟨t :: b, c, by rw [e]; rfl, by simpa using ⟨h, h1⟩, h2⟩
    · push Not at h
      exact ⟨[], t :: ts, rfl, by simp, by simpa using h⟩

/-- One pass of the outer loop over a piece. -/
theorem gather_piece {ms : Bool} {sofar blanks c rest : List Tok} (h : Piece ms blanks c rest) :
    gather ms sofar 0 ((blanks ++ c ++ rest).dropWhile fun t => t.isSep || t.isSpace) = (.ok (sofar ++ kept c, 0), rest) := by
  rw [List.append_assoc, dropWhile_blanks h.blanks, gather_run ⟨h.line, h.allowed⟩, h.closed, gather_stop]
  · exact fun t ht => ⟨h.last t ht, rfl⟩
  · intro t ht
    cases c with
    | nil => rw [h.empty rfl] at ht; cases ht
    | cons u c => exact h.first t (by simpa using ht)

theorem gatherAll_completes {ms : Bool} {sofar stream cmd rest : List Tok} (h : Completes ms sofar stream cmd rest) :
    ∀ n, stream.length < n → gatherAll ms n sofar 0 stream = (.ok (cmd, 0), rest) ∧ ∀ l, cmd ≠ l ++ [.sym .comma] := by
  induction h with
  | @done sofar blanks c rest hp hg =>
    intro n hn
    refine ⟨?_, fun l e => hg ⟨l, .inl e⟩⟩
    cases n with
    | zero => omega
    | succ n =>
      rw [gatherAll, gather_piece hp]
      dsimp only
      rw [if_neg]
      rintro ⟨h1, h2 | h2, h3⟩
      · exact hg ((goesOn_iff _).1 ⟨h1, h2⟩)
      · exact h2 rfl
  | @more sofar blanks c rest cmd rest' hp hg hne _ ih =>
    intro n hn
    cases n with
    | zero => omega
    | succ n =>
      have : c ≠ [] := fun e => hne (hp.empty e)
      have := List.length_pos_iff.2 this
      simp only [List.length_append] at hn
      rw [gatherAll, gather_piece hp]
      dsimp only
      rw [if_pos ⟨((goesOn_iff _).2 hg).1, .inl ((goesOn_iff _).2 hg).2, hne⟩]
      exact ih n (by omega)
  | @append sofar blanks c l hp he =>
    intro n hn
    refine ⟨?_, fun l' e => ?_⟩
    · cases n with
      | zero => omega
      | succ n =>
        rw [gatherAll, gather_piece hp]
        simp
    · rw [he] at e
      have := (List.append_inj' e rfl).2
      simp at this

theorem nextCommand_of {ms : Bool} {stream cmd rest : List Tok} (h : Next ms stream cmd rest) : nextCommand ms stream = (.ok cmd, rest) := by
  obtain ⟨h1, h2⟩ := gatherAll_completes h (stream.length + 1) (by omega)
  unfold nextCommand
  rw [h1]
  dsimp only
  rw [if_neg]
  rintro ⟨h3, h4 | h4⟩
  · rcases List.eq_nil_or_concat cmd with rfl | ⟨l, t, rfl⟩
    · exact h3 rfl
    · rw [List.concat_eq_append] at h4 h2
      have : t = .sym .comma := by simpa using h4
      exact h2 l (by rw [this])
  · exact h4 rfl

/-- How the outer loop ends. -/
theorem gatherAll_cases {ms : Bool} : ∀ {n : Nat} {sofar stream : List Tok}, stream.length < n →
    (∃ cmd rest, gatherAll ms n sofar 0 stream = (.ok (cmd, 0), rest) ∧
      (Completes ms sofar stream cmd rest ∨ ∃ l, cmd = l ++ [.sym .comma])) ∨
    (∃ cmd k rest, gatherAll ms n sofar 0 stream = (.ok (cmd, k + 1), rest) ∧ cmd ≠ []) ∨
    ∃ rest, gatherAll ms n sofar 0 stream = (.throw .runtimeError, rest)
  | 0, _, _, h => by omega
  | n + 1, sofar, stream, h => by
    obtain ⟨blanks, c0, e0, hb, hf⟩ := blanks_exists stream
    obtain ⟨c, r, e1, hr, hs⟩ := run_exists ms 0 c0
    subst e0 e1
    rw [gatherAll, dropWhile_blanks hb hf, gather_run hr]
    rcases hs with hs | ⟨t, r', rfl, h1, h2, h3⟩
    · by_cases h0 : opened 0 c = 0
      · rw [gather_stop fun t ht => ⟨(hs t ht).1, h0⟩, h0]
        dsimp only
        have hp : Piece ms blanks c r := by
          refine ⟨hb, fun t ht => hf t ?_, hr.line, hr.allowed, h0, fun t ht => (hs t ht).1, fun e => ?_⟩
          · cases c with
            | nil => cases ht
            | cons u c => simpa using ht
          · subst e
            cases r with
            | nil => rfl
            | cons u r => exact absurd (hs u rfl).1 (hf u rfl).1
        by_cases hg : GoesOn (sofar ++ kept c)
        · by_cases hne : r = []
          · subst hne
            rw [if_neg (by simp)]
            left
            refine ⟨_, _, rfl, ?_⟩
            obtain ⟨l, hl | hl⟩ := hg
            · exact .inr ⟨l, hl⟩
            · exact .inl (by simpa using Completes.append hp hl)
          · rw [if_pos ⟨((goesOn_iff _).2 hg).1, .inl ((goesOn_iff _).2 hg).2, hne⟩]
            have hc : c ≠ [] := fun e => hne (hp.empty e)
            have := List.length_pos_iff.2 hc
            simp only [List.length_append] at h
            rcases gatherAll_cases (ms := ms) (n := n) (sofar := sofar ++ kept c) (stream := r) (by omega) with ⟨cmd, rest, k1, k2⟩ | k | k
            · refine .inl ⟨cmd, rest, k1, k2.imp_left fun k2 => ?_⟩
              rw [← List.append_assoc]
              exact .more hp hg hne k2
            · exact .inr (.inl k)
            · exact .inr (.inr k)
        · rw [if_neg]
          · left
            refine ⟨_, _, rfl, .inl ?_⟩
            rw [← List.append_assoc]
            exact .done hp hg
          · rintro ⟨h1, h2 | h2, h3⟩
            · exact hg ((goesOn_iff _).1 ⟨h1, h2⟩)
            · exact h2 rfl
      · have hr0 : r = [] := by
          cases r with
          | nil => rfl
          | cons t r => exact absurd (hs t rfl).2 h0
        subst hr0
        rw [gather_stop (by simp)]
        dsimp only
        rw [if_neg (by simp)]
        obtain ⟨k, hk⟩ := Nat.exists_eq_succ_of_ne_zero h0
        refine .inr (.inl ⟨_, k, _, by rw [hk], ?_⟩)
        intro e
        obtain ⟨-, e⟩ := List.append_eq_nil_iff.1 e
        apply h0
        have : ∀ (c : List Tok), kept c = [] → ∀ n, opened n c = n := by
          intro c
          induction c with
          | nil => intro _ n; simp
          | cons t c ih =>
            intro hk n
            rw [kept_cons] at hk
            obtain ⟨a, b⟩ := List.append_eq_nil_iff.1 hk
            have ht : t.isSpace = true := by
              by_contra hc
              rw [if_neg hc] at a; cases a
            rw [opened_cons, ih b]
            match t, ht with
            | .sym .newLine, _ => rfl
            | .sym .comment, _ => rfl
        exact this c e 0
    · rw [gather_bad h1 h2 h3]
      exact .inr (.inr ⟨r', rfl⟩)

theorem nextCommand_cases (ms : Bool) (stream : List Tok) :
    (∃ cmd rest, nextCommand ms stream = (.ok cmd, rest) ∧ Next ms stream cmd rest) ∨ ∃ rest, nextCommand ms stream = (.throw .runtimeError, rest) := by
  unfold nextCommand
  rcases gatherAll_cases (ms := ms) (n := stream.length + 1) (sofar := []) (stream := stream) (by omega) with
    ⟨cmd, rest, h1, h2⟩ | ⟨cmd, k, rest, h1, h2⟩ | ⟨rest, h1⟩
  · rcases h2 with h2 | ⟨l, rfl⟩
    · have := nextCommand_of h2
      unfold nextCommand at this
      exact .inl ⟨cmd, rest, this, h2⟩
    · rw [h1]
      dsimp only
      rw [if_pos (by simp)]
      exact .inr ⟨rest, rfl⟩
  · rw [h1]
    dsimp only
    rw [if_pos ⟨h2, .inr (by simp)⟩]
    exact .inr ⟨rest, rfl⟩
  · rw [h1]
    exact .inr ⟨rest, rfl⟩

theorem nextCommand_inv {ms : Bool} {stream cmd rest : List Tok} (h : nextCommand ms stream = (.ok cmd, rest)) : Next ms stream cmd rest := by
  rcases nextCommand_cases ms stream with ⟨cmd', rest', h1, h2⟩ | ⟨rest', h1⟩
  · rw [h1] at h
    injection h with e1 e2
    injection e1 with e1
    subst e1 e2
    exact h2
  · rw [h1] at h
    injection h with e1 e2
    cases e1

end Ringing.Siril
