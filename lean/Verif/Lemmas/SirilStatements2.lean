import Verif.Lemmas.SirilStatements
/-
Reading statements from commands: `parse_command` of apps/gsiril/parser.cpp.
-/
namespace Ringing.Siril
open Grammar Spec

/-- The names with which `parse_command` does something before it looks for keywords. -/
def earlyWords : List Str :=
  ["end".toList, "quit".toList, "exit".toList, "version".toList, "rounds".toList, "row_mask".toList, "import".toList]

theorem command_name {A : PArgs} {w : Str} (h : w ∉ earlyWords) (ts : List Tok) :
    command A (.name w :: ts) = keywordCommand A.lits (.name w :: ts) := by
  simp only [earlyWords, List.mem_cons, List.not_mem_nil, or_false, not_or] at h
  obtain ⟨h1, h2, h3, h4, h5, h6, h7⟩ := h
  match ts with
  | [] =>
    rw [command, if_neg, if_neg]
    · intro e; injection e with e; exact h4 e
    · rintro (e | e | e | e)
      · exact h1 e
      · exact h2 e
      · exact h3 e
      · cases e
  | [.lit k s] => rw [command, if_neg (fun h => h5 h.1), if_neg (fun h => h6 h.1), if_neg (fun h => h7 h.2.1)]
  | [.name s] => rw [command, if_neg (fun h => h7 h.2)]
  | [.num s] | [.sym y] => rfl
  | t :: u :: us =>
    cases t <;> cases u <;> rcases us with _ | ⟨v, us⟩ <;> try rfl
    cases v <;> cases us <;> rfl

theorem command_sym (A : PArgs) (w : Str) (y : Sym) (ts : List Tok) :
    command A (.name w :: .sym y :: ts) = keywordCommand A.lits (.name w :: .sym y :: ts) := by
  cases ts <;> rfl

theorem echoMode_iff (w : Str) (m : EchoMode) : echoMode w = some m ↔ EchoWord w m := by
  unfold echoMode
  constructor
  · intro h
    split at h
    · next e => subst e; cases h; exact .echo
    · split at h
      · next e => subst e; cases h; exact .warn
      · split at h
        · next e => subst e; cases h; exact .error
        · cases h
  · rintro (_ | _ | _) <;> rfl

theorem echoMode_none {w : Str} (h : ¬ ∃ m, EchoWord w m) : echoMode w = none := by
  cases e : echoMode w with
  | none => rfl
  | some m => exact absurd ⟨m, (echoMode_iff w m).1 e⟩ h

theorem definition_assign {L : Readers} {x : Str} {y : Sym} {f : Str → Expr → Stmt} (h : Assigns y f) {ts : List Tok} {e : Expr}
    (hm : (if ts = [] then .ok .nop else makeExprC L ts) = .ok e) : definition L (.name x :: .sym y :: ts) = .ok (.stmt (f x e)) := by
  rw [definition, hm]
  cases h <;> rfl

theorem keyword_assign {L : Readers} {x : Str} (hr : ¬ Reserved x) {y : Sym} {f : Str → Expr → Stmt} (h : Assigns y f) (ts : List Tok) :
    keywordCommand L (.name x :: .sym y :: ts) = definition L (.name x :: .sym y :: ts) := by
  unfold Reserved at hr
  simp only [not_or] at hr
  obtain ⟨h1, h2, h3, h4⟩ := hr
  have hp : ¬ (x = "prove".toList ∧ Tok.sym y :: ts ≠ [] ∧ (Tok.sym y :: ts).head? ≠ some (.sym .assignment) ∧
      (Tok.sym y :: ts).head? ≠ some (.sym .immAssign) ∧ (Tok.sym y :: ts).head? ≠ some (.sym .defAssign)) := by
    rintro ⟨-, -, e1, e2, e3⟩
    cases h
    · exact e1 rfl
    · exact e3 rfl
    · exact e2 rfl
  rw [keywordCommand, if_neg hp, echoMode_none h1]
  dsimp only
  rw [if_neg h2, if_neg (fun h => h3 h.1), if_neg h4]

theorem toSize_numeral {s : Str} {v : Int} (h : Numeral s v) : toSize v = v.toNat := by
  obtain ⟨-, -, rfl, h⟩ := h
  unfold toSize
  rw [Int.emod_eq_of_lt (by omega) (by omega)]

theorem spells_makeExprC {L : Readers} {e : Expr} {ts : List Tok} (h : Spells L 0 e ts) : makeExprC L ts = .ok e :=
  (spells_good h).run _ (by omega)

theorem spells_ne {L : Readers} {p : Nat} {e : Expr} {ts : List Tok} (h : Spells L p e ts) : ts ≠ [] := (spells_good h).ne

theorem keyword_echo {L : Readers} {w : Str} {m : EchoMode} (h : EchoWord w m) (ts : List Tok) :
    keywordCommand L (.name w :: ts) =
      ((if ts = [] then .ok (.str [] {}) else makeExprC L ts) >>= fun e => .ok (.stmt (.echo m e))) := by
  have hp : w ≠ "prove".toList := by cases h <;> decide
  rw [keywordCommand, if_neg (fun h => hp h.1), (echoMode_iff w m).2 h]

theorem early_echo {w : Str} {m : EchoMode} (h : EchoWord w m) : w ∉ earlyWords := by
  cases h <;> decide

theorem reads_makeExprC (L : Readers) : Reads L (makeExprC L) := fun ts e h => reads_makeExpr L _ ts e h

/-- A statement of one command is read as that statement. -/
theorem command_line {A : PArgs} {cmd : List Tok} {s : Stmt} (h : Line A cmd s) : command A cmd = .ok (.stmt s) := by
  cases h with
  | @ends t s h ht =>
    have e : t.text = s := by rcases ht with rfl | rfl | ⟨k, rfl⟩ <;> rfl
    rw [command, if_pos (by rw [e]; tauto)]
  | ctrlZ => rfl
  | version =>
    rw [command, if_neg (by decide), if_pos rfl]
  | bells h =>
    rw [command, if_pos rfl, stringToInt_numeral h]; rfl
  | extents h =>
    rw [command, if_neg (by decide), if_pos rfl, stringToInt_numeral h]; rfl
  | rows h =>
    rw [command, if_neg (by decide), if_neg (by decide), if_pos rfl, stringToInt_numeral h]
    simp only [Out.ok_bind, toSize_numeral h]
  | rounds h =>
    rw [command, if_pos ⟨rfl, rfl⟩, h]; rfl
  | rowMask =>
    rw [command, if_neg (fun h => absurd h.1 (by decide)), if_pos ⟨rfl, rfl⟩]
  | «import» hi ht =>
    rcases ht with rfl | rfl
    · rw [command, if_pos ⟨hi, rfl⟩]
    · rw [command, if_neg (fun h => absurd h.1 (by decide)), if_neg (fun h => absurd h.1 (by decide)), if_pos ⟨hi, rfl, rfl⟩]
  | @prove e ts h hy hne =>
    rw [command_name (by decide), keywordCommand, if_pos ⟨rfl, hne, hy _ _ .define, hy _ _ .immediate, hy _ _ .dflt⟩, spells_makeExprC h]
    rfl
  | echoNothing hw => rw [command_name (early_echo hw), keyword_echo hw]; rfl
  | echo hw h => rw [command_name (early_echo hw), keyword_echo hw, if_neg (spells_ne h), spells_makeExprC h]; rfl
  | @music items trail h hc ht =>
    rw [command_name (by decide), keywordCommand, if_neg (fun h => absurd h.1 (by decide))]
    rw [show echoMode "music".toList = none from by decide]
    dsimp only
    rw [if_pos rfl]
    by_cases hi : items = []
    · subst hi
      have : trail = false := by
        cases trail
        · rfl
        · exact absurd rfl (ht rfl)
      subst this
      rfl
    · rw [parseList_of hi (fun i hi => ⟨spells_ne (h i hi), (spells_good (h i hi)).nested, spells_makeExprC (h i hi)⟩) hc trail _ (by omega)]
      rfl
  | assignNothing hy hr =>
    rw [command_sym, keyword_assign hr hy, definition_assign hy rfl]
  | assign hy hr h =>
    rw [command_sym, keyword_assign hr hy, definition_assign hy (by rw [if_neg (spells_ne h)]; exact spells_makeExprC h)]

theorem command_if {A : PArgs} {c : Expr} {ts : List Tok} (h : Spells A.lits 0 c ts) :
    command A (.name "if".toList :: ts) = .ok (.ifBlock c) := by
  rw [command_name (by decide), keywordCommand, if_neg (fun h => absurd h.1 (by decide)), show echoMode "if".toList = none from by decide]
  dsimp only
  rw [if_neg (by decide), if_pos ⟨rfl, spells_ne h⟩, spells_makeExprC h]
  rfl

theorem command_for {A : PArgs} {a : Expr} {ts : List Tok} (x : Str) (h : Spells A.lits 0 a ts) :
    command A (.name "foreach".toList :: (ts ++ [.name "as".toList, .name x])) = .ok (.forBlock x a) := by
  rw [command_name (by decide), keywordCommand, if_neg (fun h => absurd h.1 (by decide)), show echoMode "foreach".toList = none from by decide]
  dsimp only
  rw [if_neg (by decide), if_neg (fun h => absurd h.1 (by decide)), if_pos rfl, foreachHead]
  have e : (Tok.name "foreach".toList :: (ts ++ [.name "as".toList, .name x])).reverse =
      .name x :: .name "as".toList :: (ts.reverse ++ [.name "foreach".toList]) := by simp
  rw [e]
  dsimp only
  rw [if_neg (by simp)]
  simp only [List.reverse_append, List.reverse_reverse, List.reverse_cons, List.reverse_nil, List.nil_append, List.cons_append, List.tail_cons,
    spells_makeExprC h]
  rfl

theorem Grammar.Tame.tail {t : Tok} {ts : List Tok} (h : Tame (t :: ts)) (ht : Plain t) : Ctx ts := by
  refine ⟨h.nested.imp (fun hn => ?_) (by simp), fun s hs => h.small s (by simp [hs])⟩
  exact nested_plain_inv ht hn

/-- What a command begins. -/
def Opens (A : PArgs) (cmd : List Tok) : Opened → Prop
  | .stmt s => Line A cmd s
  | .ifBlock c => ∃ ts, cmd = .name "if".toList :: ts ∧ Spells A.lits 0 c ts
  | .forBlock x a => ∃ ts, cmd = .name "foreach".toList :: (ts ++ [.name "as".toList, .name x]) ∧ Spells A.lits 0 a ts

theorem command_inv {A : PArgs} {cmd : List Tok} {o : Opened} (h : command A cmd = .ok o) (hne : cmd ≠ []) (ht : Tame cmd) : Opens A cmd o := by
  -- keywords
  have hk : ∀ {cmd o}, keywordCommand A.lits cmd = .ok o → Tame cmd → Opens A cmd o := by
    clear h hne ht cmd o
    intro cmd o h ht
    match cmd with
    | [] | .num _ :: _ | .lit _ _ :: _ | .sym _ :: _ => cases h
    | .name w :: r =>
      have hc := ht.tail (plain_name w)
      rw [keywordCommand] at h
      split at h
      · next hp =>
        obtain ⟨e, he, h'⟩ := bind_ok h
        cases h'
        obtain ⟨rfl, h1, h2, h3, h4⟩ := hp
        refine .prove ((reads_makeExprC A.lits).zero he hc) (fun y f hy => ?_) h1
        cases hy
        · exact h2
        · exact h4
        · exact h3
      next hp =>
      split at h
      · next m hm =>
        have hw := (echoMode_iff w m).1 hm
        obtain ⟨e, he, h'⟩ := bind_ok h
        cases h'
        by_cases hr : r = []
        · subst hr
          rw [if_pos rfl] at he
          cases he
          exact .echoNothing hw
        · rw [if_neg hr] at he
          exact .echo hw ((reads_makeExprC A.lits).zero he hc)
      next hm =>
      have hnw : ¬ ∃ m, EchoWord w m := fun ⟨m, e⟩ => by rw [(echoMode_iff w m).2 e] at hm; cases hm
      split at h
      · next e =>
        subst e
        obtain ⟨es, he, h'⟩ := bind_ok h
        cases h'
        obtain ⟨items, trail, rfl, h1, h2, h3, rfl⟩ := parseList_inv (reads_makeExprC A.lits) he hc
        exact .music h1 h2 h3
      next hmu =>
      split at h
      · next e =>
        obtain ⟨rfl, hr⟩ := e
        obtain ⟨c, he, h'⟩ := bind_ok h
        cases h'
        exact ⟨r, rfl, (reads_makeExprC A.lits).zero he hc⟩
      next hif =>
      split at h
      · next e =>
        subst e
        unfold foreachHead at h
        split at h
        · next x w front heq =>
          split at h
          · cases h
          next hlen =>
          simp only [not_or, not_lt, ne_eq, not_not] at hlen
          obtain ⟨h3, rfl⟩ := hlen
          obtain ⟨a, ha, h'⟩ := bind_ok h
          cases h'
          have e1 : Tok.name "foreach".toList :: r = front.reverse ++ [.name "as".toList, .name x] := by
            have := congrArg List.reverse heq
            simpa using this
          cases hf : front.reverse with
          | nil => rw [hf] at e1; rw [e1] at h3; simp at h3
          | cons t ts =>
            rw [hf] at e1 ha
            injection e1 with e1 e2
            subst e1
            subst e2
            refine ⟨ts, rfl, (reads_makeExprC A.lits).zero ha ⟨?_, fun s hs => hc.small s (by simp [hs])⟩⟩
            refine hc.nested.imp (fun hn => ?_) fun hn t ht => hn t (by simp [ht])
            refine (nested_split hn rfl ?_).1
            have hd := nested_depth hn
            change depth (ts ++ [Tok.name "as".toList, Tok.name x]) = 0 at hd
            rw [depth_append, depth_plain (plain_name _), depth_plain (plain_name _)] at hd
            simpa using hd
        · cases h
      next hfo =>
      unfold definition at h
      split at h
      · next x y r' heq =>
        split at h
        · next hy =>
          injection heq with e1 e2
          injection e1 with e1
          subst e1 e2
          obtain ⟨e, he, h'⟩ := bind_ok h
          have hf : ∃ f, Assigns y f ∧ (if y = .assignment then Stmt.define w e else if y = .defAssign then .dflt w e else .immediate w e) = f w e := by
            rcases hy with rfl | rfl | rfl
            · exact ⟨_, .define, rfl⟩
            · exact ⟨_, .dflt, rfl⟩
            · exact ⟨_, .immediate, rfl⟩
          obtain ⟨f, hf, ef⟩ := hf
          rw [ef] at h'
          cases h'
          have hr : ¬ Reserved w := by
            rintro (e | e | e | e)
            · exact hnw e
            · exact hmu e
            · exact hif ⟨e, by simp⟩
            · exact hfo e
          by_cases hr' : r' = []
          · subst hr'
            rw [if_pos rfl] at he
            cases he
            exact .assignNothing hf hr
          · rw [if_neg hr'] at he
            have hpl : Plain (.sym y) := by
              rcases hy with rfl | rfl | rfl <;> exact plain_sym rfl rfl
            exact .assign hf hr ((reads_makeExprC A.lits).zero he (hc.tail hpl))
        · cases h
      · cases h
  -- the rest
  unfold command at h
  split at h
  · exact absurd rfl hne
  · next t =>
    split at h
    · next ht' =>
      cases h
      rcases ht' with e | e | e | rfl
      · exact .ends (.inl e) (by cases t <;> simp [HasText, Tok.text] at e ⊢)
      · exact .ends (.inr (.inl e)) (by cases t <;> simp [HasText, Tok.text] at e ⊢)
      · exact .ends (.inr (.inr e)) (by cases t <;> simp [HasText, Tok.text] at e ⊢)
      · exact .ctrlZ
    · split at h
      · next e => subst e; cases h; exact .version
      · exact hk h ht
  · next s w =>
    obtain ⟨v, hv⟩ := ht.small s (by simp)
    rw [stringToInt_numeral hv] at h
    split at h
    · next e => subst e; cases h; exact .bells hv
    split at h
    · next e => subst e; cases h; exact .extents hv
    split at h
    · next e => 
      subst e
      simp only [Out.ok_bind, toSize_numeral hv] at h
      cases h
      exact .rows hv
    · exact hk h ht
  · next s w s' w' =>
    split at h
    · next e =>
      obtain ⟨rfl, rfl⟩ := e
      obtain ⟨v, hv, h'⟩ := bind_ok h
      obtain ⟨v', hv', h''⟩ := bind_ok h'
      rw [show stringToInt "to".toList = .throw .runtimeError from by decide +kernel] at hv'
      cases hv'
    · exact hk h ht
  · next w k s =>
    split at h
    · next e =>
      obtain ⟨rfl, rfl⟩ := e
      obtain ⟨r, hr, h'⟩ := bind_ok h
      cases h'
      exact .rounds hr
    split at h
    · next e => obtain ⟨rfl, rfl⟩ := e; cases h; exact .rowMask
    split at h
    · next e => obtain ⟨h1, rfl, rfl⟩ := e; cases h; exact .import h1 (.inr rfl)
    · exact hk h ht
  · next w s =>
    split at h
    · next e => obtain ⟨h1, rfl⟩ := e; cases h; exact .import h1 (.inl rfl)
    · exact hk h ht
  · exact hk h ht

end Ringing.Siril
