import Verif.Lemmas.SirilStatements3
import Verif.Lemmas.Bell
import Verif.Lemmas.RowC
/-
The parser of statements always answers, and every call reads something.
-/
namespace Ringing.Siril
open Grammar Spec

theorem gather_rest {ms : Bool} {toks : List Tok} {n : Nat} {ts : List Tok} {x : Out (List Tok × Nat)} {rest : List Tok}
    (h : gather ms toks n ts = (x, rest)) : rest <:+ ts := by
  induction ts generalizing toks n with
  | nil => cases h; exact List.suffix_rfl
  | cons t ts ih =>
    rw [gather] at h
    split at h
    · cases h; exact List.suffix_rfl
    split at h
    · cases h; exact List.suffix_cons _ _
    · exact (ih h).trans (List.suffix_cons _ _)

theorem gatherAll_rest {ms : Bool} {n : Nat} {toks : List Tok} {k : Nat} {ts : List Tok} {x : Out (List Tok × Nat)} {rest : List Tok}
    (h : gatherAll ms n toks k ts = (x, rest)) : rest <:+ ts := by
  induction n generalizing toks k ts with
  | zero => cases h; exact List.suffix_rfl
  | succ n ih =>
    rw [gatherAll] at h
    split at h
    · next toks' k' rest' hg =>
      have h1 := (gather_rest hg).trans (List.dropWhile_suffix _)
      split at h
      · exact (ih h).trans h1
      · cases h; exact h1
    · next r rest' hg hg' =>
      cases h
      exact (gather_rest hg').trans (List.dropWhile_suffix _)

theorem gather_less {ms : Bool} {toks : List Tok} {n : Nat} {ts : List Tok} {x : Out (List Tok × Nat)} {rest : List Tok}
    (h : gather ms toks n ts = (x, rest)) (hne : ts ≠ []) (hs : ∀ t, ts.head? = some t → t.isSep = false) : rest.length < ts.length := by
  cases ts with
  | nil => exact absurd rfl hne
  | cons t ts =>
    rw [gather, if_neg (by simp [hs t rfl])] at h
    split at h
    · cases h; simp
    · have := (gather_rest h).length_le
      simp; omega

theorem nextCommand_rest {ms : Bool} {ts : List Tok} {x : Out (List Tok)} {rest : List Tok} (h : nextCommand ms ts = (x, rest)) :
    rest <:+ ts ∧ (ts ≠ [] → rest.length < ts.length) := by
  have h' : ∃ y, gatherAll ms (ts.length + 1) [] 0 ts = (y, rest) := by
    unfold nextCommand at h
    split at h
    · next toks n rest' hg =>
      split at h <;> (cases h; exact ⟨_, hg⟩)
    all_goals (next hg => cases h; exact ⟨_, hg⟩)
  obtain ⟨y, h'⟩ := h'
  refine ⟨gatherAll_rest h', fun hne => ?_⟩
  rw [gatherAll] at h'
  have key : ∀ {z rest'}, gather ms [] 0 (ts.dropWhile fun t => t.isSep || t.isSpace) = (z, rest') → rest'.length < ts.length := by
    intro z rest' hg
    have hl := (List.dropWhile_suffix (fun t : Tok => t.isSep || t.isSpace) (l := ts)).length_le
    by_cases hd : (ts.dropWhile fun t => t.isSep || t.isSpace) = []
    · rw [hd] at hg
      cases hg
      exact List.length_pos_iff.2 hne
    · have := gather_less hg hd fun t ht => by
        have := List.head?_dropWhile_not (fun t : Tok => t.isSep || t.isSpace) ts
        rw [ht] at this
        simp at this
        exact this.1
      omega
  split at h'
  · next toks' k' rest' hg =>
    have := key hg
    split at h'
    · have := (gatherAll_rest h').length_le
      omega
    · cases h'; exact this
  · next r rest' hg hg' =>
    cases h'
    exact key hg'

theorem ends_ite {α : Type} {p : Prop} [Decidable p] {x y : Out α} (hx : Answers x) (hy : Answers y) : Answers (if p then x else y) := by
  split
  · exact hx
  · exact hy

theorem ends_makeExprC {L : Readers} (hL : ReadersEnd L) (ts : List Tok) : Answers (makeExprC L ts) := ends_makeExpr hL (by omega)

theorem ends_row (s : Str) : Answers (Row.ofStringC s) := by
  unfold Row.ofStringC
  rcases Row.readBells_cases s.length s (le_refl _) with ⟨d, h, hd⟩ | h <;> rw [h]
  · rw [Out.ok_bind, Row.ofVectorC]
    rw [Row.validateC_spec]
    exact ends_bind (ends_ite (ends_ok _) (ends_throw _)) fun _ _ => ends_ok _
  · exact ends_throw _

theorem ends_keyword {L : Readers} (hL : ReadersEnd L) (cmd : List Tok) : Answers (keywordCommand L cmd) := by
  unfold keywordCommand
  split
  · next s r =>
    refine ends_ite (ends_bind (ends_makeExprC hL _) fun _ _ => ends_ok _) ?_
    split
    · exact ends_bind (ends_ite (ends_ok _) (ends_makeExprC hL _)) fun _ _ => ends_ok _
    · refine ends_ite (ends_bind (ends_parseList (by omega) fun us _ => ends_makeExprC hL us) fun _ _ => ends_ok _) ?_
      refine ends_ite (ends_bind (ends_makeExprC hL _) fun _ _ => ends_ok _) ?_
      refine ends_ite ?_ ?_
      · unfold foreachHead
        split
        · exact ends_ite (ends_throw _) (ends_bind (ends_makeExprC hL _) fun _ _ => ends_ok _)
        · exact ends_throw _
      · unfold definition
        split
        · exact ends_ite (ends_bind (ends_ite (ends_ok _) (ends_makeExprC hL _)) fun _ _ => ends_ok _) (ends_throw _)
        · exact ends_throw _
  · exact ends_throw _

theorem ends_command {A : PArgs} (hL : ReadersEnd A.lits) (cmd : List Tok) : Answers (command A cmd) := by
  have hi : ∀ s (f : Int → Out Opened), (∀ v, Answers (f v)) → Answers (stringToInt s >>= f) := fun s f h => ends_bind (ends_stringToInt s) fun v _ => h v
  unfold command
  split
  · exact ends_ok _
  · exact ends_ite (ends_ok _) (ends_ite (ends_ok _) (ends_keyword hL _))
  · exact ends_ite (hi _ _ fun _ => ends_ok _) (ends_ite (hi _ _ fun _ => ends_ok _) (ends_ite (hi _ _ fun _ => ends_ok _) (ends_keyword hL _)))
  · exact ends_ite (hi _ _ fun _ => hi _ _ fun _ => ends_ok _) (ends_keyword hL _)
  · exact ends_ite (ends_bind (ends_row _) fun _ _ => ends_ok _) (ends_ite (ends_ok _) (ends_ite (ends_ok _) (ends_keyword hL _)))
  · exact ends_ite (ends_ok _) (ends_keyword hL _)
  · exact ends_keyword hL _

/-- An answer, and what is left of the stream is a part of it. -/
def AnswersIn (ts : List Tok) (x : Out Stmt × List Tok) : Prop := Answers x.1 ∧ x.2 <:+ ts

theorem parse_answers {A : PArgs} (hL : ReadersEnd A.lits) (n : Nat) :
    (∀ cmd ts, 2 * ts.length + 2 ≤ n → AnswersIn ts (parseCommand A n cmd ts)) ∧
    (∀ alts0 c blk h ts, 2 * ts.length + 1 ≤ n → AnswersIn ts (parseIf A n alts0 c blk h ts)) ∧
    ∀ x a blk ts, 2 * ts.length + 1 ≤ n → AnswersIn ts (parseFor A n x a blk ts) := by
  induction n with
  | zero => exact ⟨fun _ _ h => by omega, fun _ _ _ _ _ h => by omega, fun _ _ _ _ h => by omega⟩
  | succ n ih =>
    obtain ⟨ih1, ih2, ih3⟩ := ih
    have ok : ∀ {s : Stmt} {ts : List Tok}, AnswersIn ts (.ok s, ts) := fun {s ts} => ⟨ends_ok _, List.suffix_rfl⟩
    have th : ∀ {e : Err} {ts : List Tok}, AnswersIn ts (.throw e, ts) := fun {s ts} => ⟨ends_throw _, List.suffix_rfl⟩
    refine ⟨fun cmd ts hn => ?_, fun alts0 c blk h ts hn => ?_, fun x a blk ts hn => ?_⟩
    · rw [parseCommand]
      rcases ends_command hL cmd with ⟨o, ho⟩ | ⟨e, he⟩
      · rw [ho]
        cases o with
        | stmt s => exact ok
        | ifBlock c => exact ih2 _ _ _ _ _ (by omega)
        | forBlock x a => exact ih3 _ _ _ _ (by omega)
      · rw [he]; exact th
    · rw [parseIf]
      rcases nextCommand_cases A.msiril ts with ⟨cmd, rest, h1, h2⟩ | ⟨rest, h1⟩
      · obtain ⟨hr1, hr2⟩ := nextCommand_rest h1
        rw [h1]
        dsimp only
        have hlt : cmd ≠ [] → rest.length < ts.length := fun hc => hr2 fun e => by
          subst e; cases h1; exact hc rfl
        have up : ∀ {x}, AnswersIn rest x → AnswersIn ts x := fun h => ⟨h.1, h.2.trans hr1⟩
        split
        · exact up th
        next hne =>
        have := hlt hne
        split
        · exact up ok
        split
        · split
          · exact up th
          · rcases ends_makeExprC hL cmd.tail with ⟨e, he⟩ | ⟨e, he⟩ <;> rw [he]
            · exact up (ih2 _ _ _ _ _ (by omega))
            · exact up th
        split
        · split
          · exact up th
          · exact up (ih2 _ _ _ _ _ (by omega))
        · obtain ⟨ha, hb⟩ := ih1 cmd rest (by omega)
          rcases hp : parseCommand A n cmd rest with ⟨x, rest'⟩
          rw [hp] at ha hb
          rcases ha with ⟨s, rfl⟩ | ⟨e, rfl⟩
          · dsimp only at hb ⊢
            have := hb.length_le
            have := ih2 alts0 c (blk ++ [s]) h rest' (by omega)
            exact up ⟨this.1, this.2.trans hb⟩
          · exact up ⟨ends_throw _, hb⟩
      · rw [h1]
        exact ⟨ends_throw _, (nextCommand_rest h1).1⟩
    · rw [parseFor]
      rcases nextCommand_cases A.msiril ts with ⟨cmd, rest, h1, h2⟩ | ⟨rest, h1⟩
      · obtain ⟨hr1, hr2⟩ := nextCommand_rest h1
        rw [h1]
        dsimp only
        have hlt : cmd ≠ [] → rest.length < ts.length := fun hc => hr2 fun e => by
          subst e; cases h1; exact hc rfl
        have up : ∀ {x}, AnswersIn rest x → AnswersIn ts x := fun h => ⟨h.1, h.2.trans hr1⟩
        split
        · exact up th
        next hne =>
        have := hlt hne
        split
        · exact up ok
        · obtain ⟨ha, hb⟩ := ih1 cmd rest (by omega)
          rcases hp : parseCommand A n cmd rest with ⟨y, rest'⟩
          rw [hp] at ha hb
          rcases ha with ⟨s, rfl⟩ | ⟨e, rfl⟩
          · dsimp only at hb ⊢
            have := hb.length_le
            have := ih3 x a (blk ++ [s]) rest' (by omega)
            exact up ⟨this.1, this.2.trans hb⟩
          · exact up ⟨ends_throw _, hb⟩
      · rw [h1]
        exact ⟨ends_throw _, (nextCommand_rest h1).1⟩

theorem parseC_answers {A : PArgs} (hL : ReadersEnd A.lits) (ts : List Tok) :
    AnswersIn ts (parseC A ts) ∧ (ts ≠ [] → (parseC A ts).2.length < ts.length) := by
  unfold parseC
  rcases nextCommand_cases A.msiril ts with ⟨cmd, rest, h1, h2⟩ | ⟨rest, h1⟩
  · obtain ⟨hr1, hr2⟩ := nextCommand_rest h1
    rw [h1]
    dsimp only
    have hl := hr1.length_le
    obtain ⟨ha, hb⟩ := (parse_answers hL (2 * ts.length + 2)).1 cmd rest (by omega)
    exact ⟨⟨ha, hb.trans hr1⟩, fun hne => lt_of_le_of_lt hb.length_le (hr2 hne)⟩
  · rw [h1]
    exact ⟨⟨ends_throw _, (nextCommand_rest h1).1⟩, (nextCommand_rest h1).2⟩

theorem nextCommand_nil_rest {ms : Bool} {ts rest : List Tok} (h : Next ms ts [] rest) : rest = [] := by
  have key : ∀ {sofar ts cmd rest}, Completes ms sofar ts cmd rest → cmd = [] → rest = [] := by
    intro sofar ts cmd rest h
    induction h with
    | @done sofar blanks c rest hp hg =>
      intro e
      refine hp.empty ?_
      have e' : kept c = [] := (List.append_eq_nil_iff.1 e).2
      cases c with
      | nil => rfl
      | cons t c =>
        rw [kept_cons, if_neg (fun h => (hp.first t rfl).2 ((tokSpace_iff t).1 h))] at e'
        cases e'
    | more hp hg hr hc ih => exact ih
    | append hp he => intro e; rfl
  exact key h rfl

end Ringing.Siril
