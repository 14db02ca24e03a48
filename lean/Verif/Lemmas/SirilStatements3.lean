import Verif.Lemmas.SirilStatements2
/-
Statements with blocks: `parse_if` and `parse_foreach` of apps/gsiril/parser.cpp.
-/
namespace Ringing.Siril
open Grammar Spec

theorem splits_append {ms : Bool} {ts mid rest : List Tok} {a b : List (List Tok)} (h : Splits ms ts a mid) (h' : Splits ms mid b rest) :
    Splits ms ts (a ++ b) rest := by
  induction h with
  | nil => exact h'
  | cons hn _ ih => exact .cons hn (ih h')

theorem splits_split {ms : Bool} {ts rest : List Tok} {a b : List (List Tok)} (h : Splits ms ts (a ++ b) rest) :
    ∃ mid, Splits ms ts a mid ∧ Splits ms mid b rest := by
  induction a generalizing ts with
  | nil => exact ⟨ts, .nil, h⟩
  | cons c a ih =>
    cases h with
    | cons hn h =>
      obtain ⟨mid, h1, h2⟩ := ih h
      exact ⟨mid, .cons hn h1, h2⟩

theorem says_command {A : PArgs} {s : Stmt} {cmd : List Tok} {cmds : List (List Tok)} (h : Says A (.statement s) (cmd :: cmds)) :
    cmd ≠ [] ∧ ∃ o, command A cmd = .ok o := by
  cases h with
  | line h =>
    refine ⟨?_, _, command_line h⟩
    cases h <;> simp
  | ifs h _ => exact ⟨by simp, _, command_if h⟩
  | foreach h _ => exact ⟨by simp, _, command_for _ h⟩

theorem command_endfor (A : PArgs) : command A [.name "endfor".toList] = .throw .runtimeError := by
  rw [command_name (by decide)]; rfl

/-- What is proved of a form by induction. -/
def Claim (A : PArgs) : Form → List (List Tok) → Prop
  | .statement s, cmds => ∀ cmd cmds', cmds = cmd :: cmds' → ∀ n ts rest, 2 * cmds'.length + 1 ≤ n → Splits A.msiril ts cmds' rest →
      parseCommand A n cmd ts = (.ok s, rest)
  | .branches c h alts, cmds => ∀ n alts0 ts rest, 2 * cmds.length ≤ n → Splits A.msiril ts cmds rest →
      parseIf A n alts0 c [] h ts = (.ok (.ifs (alts0 ++ alts)), rest)
  | .ifBody b, cmds => b.length ≤ cmds.length ∧ ∀ n alts0 c blk h ts mid, 2 * cmds.length ≤ n → Splits A.msiril ts cmds mid →
      parseIf A n alts0 c blk h ts = parseIf A (n - b.length) alts0 c (blk ++ b) h mid
  | .forBody b, cmds => b.length ≤ cmds.length ∧ ∀ n x a blk ts mid, 2 * cmds.length ≤ n → Splits A.msiril ts cmds mid →
      parseFor A n x a blk ts = parseFor A (n - b.length) x a (blk ++ b) mid

theorem says_claim {A : PArgs} {f : Form} {cmds : List (List Tok)} (h : Says A f cmds) : Claim A f cmds := by
  induction h with
  | line h =>
    intro cmd cmds' e n ts rest hn hs
    cases e
    cases hs
    cases n with
    | zero => omega
    | succ n => rw [parseCommand, command_line h]
  | @ifs c ts0 alts cmds h _ ih =>
    intro cmd cmds' e n ts rest hn hs
    cases e
    cases n with
    | zero => omega
    | succ n =>
      rw [parseCommand, command_if h]
      exact ih n [] ts rest (by omega) hs
  | @foreach x a ts0 b cmds h _ ih =>
    intro cmd cmds' e n ts rest hn hs
    cases e
    obtain ⟨mid, h1, h2⟩ := splits_split hs
    obtain ⟨ih1, ih2⟩ := ih
    simp only [List.length_append, List.length_singleton] at hn
    cases n with
    | zero => omega
    | succ n =>
      rw [parseCommand, command_for x h]
      dsimp only
      rw [ih2 n x a [] ts mid (by omega) h1]
      cases h2 with
      | cons hn2 h2 =>
        cases h2
        obtain ⟨k, hk⟩ : ∃ k, n - b.length = k + 1 := ⟨n - b.length - 1, by omega⟩
        rw [hk, parseFor, nextCommand_of hn2]
        dsimp only
        rw [if_neg (by simp), if_pos rfl]; rfl
  | @endif c h b cmds _ ih =>
    intro n alts0 ts rest hn hs
    obtain ⟨mid, h1, h2⟩ := splits_split hs
    obtain ⟨ih1, ih2⟩ := ih
    simp only [List.length_append, List.length_singleton] at hn
    rw [ih2 n alts0 c [] h ts mid (by omega) h1]
    cases h2 with
    | cons hn2 h2 =>
      cases h2
      obtain ⟨k, hk⟩ : ∃ k, n - b.length = k + 1 := ⟨n - b.length - 1, by omega⟩
      rw [hk, parseIf, nextCommand_of hn2]
      dsimp only
      rw [if_neg (by simp), if_pos rfl]; rfl
  | @elseif c b cmds c' ts0 alts cmds' _ hsp _ ih ih' =>
    intro n alts0 ts rest hn hs
    obtain ⟨mid, h1, h2⟩ := splits_split hs
    obtain ⟨ih1, ih2⟩ := ih
    simp only [List.length_append, List.length_cons] at hn
    rw [ih2 n alts0 c [] false ts mid (by omega) h1]
    cases h2 with
    | cons hn2 h2 =>
      obtain ⟨k, hk⟩ : ∃ k, n - b.length = k + 1 := ⟨n - b.length - 1, by omega⟩
      have hne := spells_ne hsp
      have hl : 1 < (Tok.name "elseif".toList :: ts0).length := by
        rw [List.length_cons]
        have := List.length_pos_iff.2 hne
        omega
      rw [hk, parseIf, nextCommand_of hn2]
      dsimp only
      rw [if_neg (by simp), if_neg (fun e => by injection e with e; injection e with e; revert e; decide), if_pos ⟨hl, rfl⟩,
        if_neg (by simp), List.tail_cons, spells_makeExprC hsp]
      dsimp only
      rw [ih' k _ _ rest (by omega) h2]
      simp
  | @«else» c b cmds alts cmds' _ _ ih ih' =>
    intro n alts0 ts rest hn hs
    obtain ⟨mid, h1, h2⟩ := splits_split hs
    obtain ⟨ih1, ih2⟩ := ih
    simp only [List.length_append, List.length_cons] at hn
    rw [ih2 n alts0 c [] false ts mid (by omega) h1]
    cases h2 with
    | cons hn2 h2 =>
      obtain ⟨k, hk⟩ : ∃ k, n - b.length = k + 1 := ⟨n - b.length - 1, by omega⟩
      rw [hk, parseIf, nextCommand_of hn2]
      dsimp only
      rw [if_neg (by simp), if_neg (fun e => by injection e with e; injection e with e; revert e; decide),
        if_neg (fun e => absurd e.1 (by simp)), if_pos rfl, if_neg (by simp), ih' k _ _ rest (by omega) h2]
      simp
  | ifNil =>
    refine ⟨by simp, fun n alts0 c blk h ts mid _ hs => ?_⟩
    cases hs
    simp
  | @ifCons s cmd cmds b cmds' hst hw _ ih ih' =>
    obtain ⟨ih1, ih2⟩ := ih'
    refine ⟨by simp; omega, fun n alts0 c blk h ts rest hn hs => ?_⟩
    simp only [List.cons_append, List.length_cons, List.length_append] at hn
    obtain ⟨hne, -⟩ := says_command hst
    cases hs with
    | cons hn1 hs =>
      obtain ⟨mid, h1, h2⟩ := splits_split hs
      cases n with
      | zero => omega
      | succ n =>
        rw [parseIf, nextCommand_of hn1]
        dsimp only
        rw [if_neg hne, if_neg (fun e => hw (.inl e)), if_neg, if_neg (fun e => hw (.inr (.inl e))),
          ih cmd cmds rfl n _ mid (by omega) h1]
        · dsimp only
          rw [ih2 n alts0 c (blk ++ [s]) h mid rest (by omega) h2]
          simp
        · rintro ⟨e1, e2⟩
          match cmd with
          | [] => cases e2
          | [_] => simp at e1
          | t :: u :: us =>
            injection e2 with e2
            subst e2
            exact hw (.inr (.inr ⟨u, us, rfl⟩))
  | forNil =>
    refine ⟨by simp, fun n x a blk ts mid _ hs => ?_⟩
    cases hs
    simp
  | @forCons s cmd cmds b cmds' hst _ ih ih' =>
    obtain ⟨ih1, ih2⟩ := ih'
    refine ⟨by simp; omega, fun n x a blk ts rest hn hs => ?_⟩
    simp only [List.cons_append, List.length_cons, List.length_append] at hn
    obtain ⟨hne, o, ho⟩ := says_command hst
    cases hs with
    | cons hn1 hs =>
      obtain ⟨mid, h1, h2⟩ := splits_split hs
      cases n with
      | zero => omega
      | succ n =>
        rw [parseFor, nextCommand_of hn1]
        dsimp only
        rw [if_neg hne, if_neg (fun e => by rw [e, command_endfor] at ho; cases ho), ih cmd cmds rfl n _ mid (by omega) h1]
        dsimp only
        rw [ih2 n x a (blk ++ [s]) mid rest (by omega) h2]
        simp

/-! ### The converse -/

theorem Grammar.AllTame.next {ms : Bool} {ts cmd rest : List Tok} (h : AllTame ms ts) (hn : Next ms ts cmd rest) : Tame cmd ∧ AllTame ms rest :=
  ⟨h [cmd] rest (.cons hn .nil) cmd (by simp), fun cmds r hs c hc => h (cmd :: cmds) r (.cons hn hs) c (by simp [hc])⟩

theorem Grammar.AllTame.splits {ms : Bool} {ts rest : List Tok} {cmds : List (List Tok)} (h : AllTame ms ts) (hs : Splits ms ts cmds rest) : AllTame ms rest := by
  induction hs with
  | nil => exact h
  | cons hn _ ih => exact ih (h.next hn).2

theorem branches_cons {A : PArgs} {s : Stmt} {cmd : List Tok} {cmds cmds' : List (List Tok)} {c : Expr} {h : Bool} {b : List Stmt}
    {al : List (Expr × List Stmt)} (hst : Says A (.statement s) (cmd :: cmds)) (hw : ¬ IfWord cmd)
    (hb : Says A (.branches c h ((c, b) :: al)) cmds') : Says A (.branches c h ((c, s :: b) :: al)) (cmd :: cmds ++ cmds') := by
  cases hb with
  | endif hb =>
    rw [← List.append_assoc]
    exact .endif (.ifCons hst hw hb)
  | elseif hb h1 h2 =>
    rw [← List.append_assoc]
    exact .elseif (.ifCons hst hw hb) h1 h2
  | «else» hb h1 =>
    rw [← List.append_assoc]
    exact .else (.ifCons hst hw hb) h1

theorem parse_inv (A : PArgs) (n : Nat) :
    (∀ cmd ts s rest, parseCommand A n cmd ts = (.ok s, rest) → cmd ≠ [] → Tame cmd → AllTame A.msiril ts →
      ∃ cmds, Splits A.msiril ts cmds rest ∧ Says A (.statement s) (cmd :: cmds)) ∧
    (∀ alts0 c blk h ts s rest, parseIf A n alts0 c blk h ts = (.ok s, rest) → AllTame A.msiril ts →
      ∃ b al cmds, s = .ifs (alts0 ++ (c, blk ++ b) :: al) ∧ Splits A.msiril ts cmds rest ∧ Says A (.branches c h ((c, b) :: al)) cmds) ∧
    ∀ x a blk ts s rest, parseFor A n x a blk ts = (.ok s, rest) → AllTame A.msiril ts →
      ∃ b cmds, s = .foreach x a (blk ++ b) ∧ Splits A.msiril ts (cmds ++ [[.name "endfor".toList]]) rest ∧ Says A (.forBody b) cmds := by
  induction n with
  | zero =>
    refine ⟨?_, ?_, ?_⟩ <;> intros <;> rename_i h <;> simp_all [parseCommand, parseIf, parseFor]
  | succ n ih =>
    obtain ⟨ih1, ih2, ih3⟩ := ih
    refine ⟨?_, ?_, ?_⟩
    · intro cmd ts s rest h hne ht ha
      rw [parseCommand] at h
      split at h
      · next s' hc =>
        cases h
        exact ⟨[], .nil, .line (command_inv hc hne ht)⟩
      · next c hc =>
        obtain ⟨us, rfl, hsp⟩ := command_inv hc hne ht
        obtain ⟨b, al, cmds, rfl, h1, h2⟩ := ih2 _ _ _ _ _ _ _ h ha
        exact ⟨cmds, h1, .ifs hsp h2⟩
      · next x a hc =>
        obtain ⟨us, rfl, hsp⟩ := command_inv hc hne ht
        obtain ⟨b, cmds, rfl, h1, h2⟩ := ih3 _ _ _ _ _ _ h ha
        exact ⟨_, h1, .foreach hsp h2⟩
      all_goals cases h
    · intro alts0 c blk h0 ts s rest h ha
      rw [parseIf] at h
      split at h
      · next cmd ts' hc =>
        have hn := nextCommand_inv hc
        obtain ⟨ht, ha'⟩ := ha.next hn
        split at h
        · cases h
        next hne =>
        split at h
        · next e =>
          cases h
          exact ⟨[], [], [cmd], by simp, .cons hn .nil, by rw [e]; exact .endif (cmds := []) .ifNil⟩
        next hendif =>
        split at h
        · next e =>
          split at h
          · cases h
          next hh =>
          have hh : h0 = false := by simpa using hh
          subst hh
          split at h
          · next c' hc' =>
            obtain ⟨b, al, cmds, rfl, h1, h2⟩ := ih2 _ _ _ _ _ _ _ h ha'
            match cmd, e.2 with
            | t :: us, e2 =>
              injection e2 with e2
              subst e2
              refine ⟨[], (c', b) :: al, _ :: cmds, by simp, .cons hn h1, ?_⟩
              exact .elseif (cmds := []) .ifNil ((reads_makeExprC A.lits).zero hc' (ht.tail (plain_name _))) h2
          all_goals cases h
        next helseif =>
        split at h
        · next e =>
          split at h
          · cases h
          next hh =>
          have hh : h0 = false := by simpa using hh
          subst hh
          obtain ⟨b, al, cmds, rfl, h1, h2⟩ := ih2 _ _ _ _ _ _ _ h ha'
          subst e
          exact ⟨[], _ :: al, _ :: cmds, by simp, .cons hn h1, .else (cmds := []) .ifNil h2⟩
        next helse =>
        have hw : ¬ IfWord cmd := by
          rintro (e | e | ⟨t, us, e⟩)
          · exact hendif e
          · exact helse e
          · exact helseif (by rw [e]; simp)
        split at h
        · next s' ts'' hp =>
          obtain ⟨cmds1, h1, h2⟩ := ih1 _ _ _ _ hp hne ht ha'
          obtain ⟨b, al, cmds, rfl, h3, h4⟩ := ih2 _ _ _ _ _ _ _ h (ha'.splits h1)
          exact ⟨s' :: b, al, cmd :: cmds1 ++ cmds, by simp, .cons hn (splits_append h1 h3), branches_cons h2 hw h4⟩
        · next hr =>
          exact absurd h (hr _ _)
      all_goals cases h
    · intro x a blk ts s rest h ha
      rw [parseFor] at h
      split at h
      · next cmd ts' hc =>
        have hn := nextCommand_inv hc
        obtain ⟨ht, ha'⟩ := ha.next hn
        split at h
        · cases h
        next hne =>
        split at h
        · next e =>
          cases h
          exact ⟨[], [], by simp, by rw [← e]; exact .cons hn .nil, .forNil⟩
        split at h
        · next s' ts'' hp =>
          obtain ⟨cmds1, h1, h2⟩ := ih1 _ _ _ _ hp hne ht ha'
          obtain ⟨b, cmds, rfl, h3, h4⟩ := ih3 _ _ _ _ _ _ h (ha'.splits h1)
          refine ⟨s' :: b, cmd :: cmds1 ++ cmds, by simp, ?_, .forCons h2 h4⟩
          rw [List.append_assoc]
          exact .cons hn (splits_append h1 h3)
        · next hr =>
          exact absurd h (hr _ _)
      all_goals cases h

end Ringing.Siril
