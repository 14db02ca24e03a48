import Verif.Lemmas.SirilParser2
import Verif.Props.NamedMusic
/-
`make_expr` of apps/gsiril/parser.cpp reads what the grammar spells: the induction.
-/
namespace Ringing.Siril
open Grammar Spec

theorem stringToInt_numeral {s : Str} {v : Int} (h : Numeral s v) : stringToInt s = .ok v := by
  obtain ⟨h1, h2, rfl, h3⟩ := h
  have h0 : '\x00' ∉ s := fun hx => by have := h2 _ hx; revert this; unfold Digit; decide
  have := (Music.strtol_spec (a := []) (sg := []) (ds := s) (r := []) (by simp) h1 h2 (by simp)).1 (.inl rfl)
  simp only [List.nil_append, List.append_nil] at this
  unfold stringToInt
  rw [Music.cStr_id h0, this]
  simp only [List.length_nil, Nat.sub_zero, List.drop_length, List.all_nil, if_true]
  have e : max (-2 ^ 63) (min (number s : Int) (2 ^ 63 - 1)) = number s := by
    have : (number s : Int) < 2 ^ 31 := by exact_mod_cast h3
    omega
  rw [e]
  have : (number s : Int) < 2 ^ 31 := by exact_mod_cast h3
  rw [i32_id ⟨by omega, by omega⟩]

theorem definedArg_some {t : Tok} {ts : List Tok} {x : Str} :
    definedArg t ts = some x ↔ t = .name "defined".toList ∧ (ts = [.name x] ∨ ts = [.sym .openParen, .name x, .sym .closeParen]) := by
  unfold definedArg
  by_cases h : t = .name "defined".toList
  · rw [if_pos h]
    constructor
    · intro e
      refine ⟨h, ?_⟩
      split at e
      · injection e with e; subst e; exact .inl rfl
      · injection e with e; subst e; exact .inr rfl
      · cases e
    · rintro ⟨-, rfl | rfl⟩ <;> rfl
  · rw [if_neg h]
    constructor
    · intro e; cases e
    · rintro ⟨e, -⟩; exact absurd e h

theorem definedArg_none {t : Tok} {ts : List Tok} (h : t ≠ .name "defined".toList) : definedArg t ts = none := if_neg h

/-- The names that are not prefixes. -/
theorem makeUnary_name {L : Readers} {mk : List Tok → Out Expr} {x : Str} {ts : List Tok} (hd : definedArg (.name x) ts = none) (hx : ¬ Prefix x) :
    makeUnary L mk (.name x) ts =
      if ts.length ≥ 2 then
        isEnclosed .openParen .closeParen ts >>= fun b =>
          if b then makeArgs mk (ts.tail.dropLast) >>= fun as => .ok (.call x as) else .throw .runtimeError
      else if ts ≠ [] then .throw .runtimeError else .ok (nameNode x) := by
  unfold Prefix at hx
  push Not at hx
  unfold makeUnary
  rw [hd]
  simp only [if_neg hx.1, if_neg hx.2.1, if_neg hx.2.2, literal]

theorem nameNode_keyword {x : Str} {e : Expr} (h : Keyword x e) : nameNode x = e := by
  cases h <;> rfl

theorem nameNode_var {x : Str} (hk : ¬ ∃ e, Keyword x e) : nameNode x = .sym x := by
  have k : ∀ {w e}, Keyword w e → x ≠ w := by
    rintro w e h rfl
    exact hk ⟨_, h⟩
  unfold nameNode
  rw [if_neg (k .brk), if_neg (k .rounds), if_neg (k .true), if_neg (k .false), if_neg (k .bells), if_neg (k .length),
    if_neg (k .endproof), if_neg (k .proving)]

theorem spells_good {L : Readers} {p : Nat} {e : Expr} {ts : List Tok} (h : Spells L p e ts) : ReadAs L p e ts := by
  induction h with
  | up hp _ ih => exact ⟨ih.ne, ih.nested, noneOutside_mono ih.none fun t h => by omega, ih.run⟩
  | @assignNothing x =>
    refine good_assign rfl .nil fun n hl rest => ?_
    rw [assignLevel, assign_found rfl]; rfl
  | @assign x e ts _ ih =>
    refine good_assign rfl ih.nested fun n hl rest => ?_
    rw [assignLevel, assign_found rfl, Out.ok_bind]
    dsimp only
    rw [if_neg ih.ne, ih.run n (by omega)]; rfl
  | @append x e ts _ ih =>
    refine good_assign rfl ih.nested fun n hl rest => ?_
    rw [assignLevel, assign_found rfl, Out.ok_bind]
    dsimp only
    rw [if_neg ih.ne, ih.run n (by omega)]; rfl
  | @immediate x e ts _ ih =>
    refine good_assign rfl ih.nested fun n hl rest => ?_
    rw [assignLevel, assign_found rfl, Out.ok_bind]
    dsimp only
    rw [if_neg ih.ne, ih.run n (by omega)]; rfl
  | binary ho _ _ ih1 ih2 => exact good_binary ho ih1 ih2
  | @paren e ts _ ih =>
    refine good_group .paren ih.nested fun n hl => ?_
    cases n with
    | zero => omega
    | succ n =>
      rw [makeExpr, isEnclosed_true .paren ih.nested, Out.ok_bind, if_pos rfl, List.dropLast_concat]
      exact ih.run n (by simp at hl; omega)
  | @array items trail _ hc ht ih =>
    have hn : Nested (commas (items.map fun i => i.2) ++ (if trail then [Tok.sym .comma] else [])) := by
      refine nested_append (nested_commas fun ts hts => ?_) ?_
      · obtain ⟨i, hi, rfl⟩ := List.mem_map.1 hts
        exact (ih i hi).nested
      · cases trail
        · exact .nil
        · exact .plain plain_comma .nil
    refine good_group .brack hn fun n hl => ?_
    cases n with
    | zero => omega
    | succ n =>
      rw [makeExpr, isEnclosed_head _ (by simp), Out.ok_bind, if_neg (by simp), isEnclosed_head _ (by simp), Out.ok_bind, if_neg (by simp),
        isEnclosed_true .brack hn, Out.ok_bind, if_pos rfl, List.dropLast_concat]
      simp only [List.length_cons, List.length_append, List.length_nil] at hl
      have : parseList (makeExpr L n) ((commas (items.map fun i => i.2) ++ (if trail then [Tok.sym .comma] else []) ++ [Tok.sym .closeBrack]).length + 1)
          (commas (items.map (·.2)) ++ (if trail then [.sym .comma] else [])) = .ok (items.map (·.1)) := by
        by_cases h0 : items = []
        · subst h0
          have : trail = false := by
            cases trail
            · rfl
            · exact absurd rfl (ht rfl)
          subst this
          rw [parseList]
          simp only [List.map_nil, commas, Bool.false_eq_true, if_false, List.append_nil]
          rw [find1_none (by simp) (noneOutside_nil _)]
          rfl
        · refine parseList_items h0 ih hc (fun i hi => ?_) trail _ (by simp only [List.length_append, List.length_singleton]; omega)
          have := length_commas_le (a := i.2) (l := items.map (·.2)) (List.mem_map.2 ⟨i, hi, rfl⟩)
          omega
      rw [this]; rfl
  | @braces as e _ h2 h3 _ h5 h6 h7 h8 h9 ih1 ih2 =>
    have hg : ∀ a ∈ as, GoodAlt L a.1 := fun a ha => ⟨ih1 a ha, h2 a ha, h3 a ha, ih2 a ha, h5 a ha, h6 a ha⟩
    have hn := nested_altToks hg
    refine good_group .brace hn fun n hl => ?_
    cases n with
    | zero => omega
    | succ n =>
      rw [makeExpr, isEnclosed_head _ (by simp), Out.ok_bind, if_neg (by simp), isEnclosed_true .brace hn, Out.ok_bind, if_pos rfl, List.dropLast_concat]
      simp only [List.length_cons, List.length_append, List.length_nil] at hl
      have hm : as.length = as.length - 1 + 1 := by
        cases as with
        | nil => cases h9
        | cons a as => simp
      have hle : as.length - 1 ≤ (altToks as).length := by
        have : ∀ bs : List (Alt × Nat), Separated bs → bs.length - 1 ≤ (altToks bs).length := by
          intro bs
          induction bs with
          | nil => intro _; simp
          | cons b bs ihb =>
            intro hs
            obtain ⟨b, j⟩ := b
            cases bs with
            | nil => simp
            | cons c bs =>
              have := ihb hs.2
              have hj := hs.1
              rw [altToks, List.length_append, List.length_append, List.length_replicate]
              simp only [List.length_cons] at this ⊢
              omega
        exact this as h8
      rw [bracesLoop_alts (as.length - 1) hm hg (fun a ha => by have := length_altToks_le ha; omega) h7 h8 none _
        (by simp only [List.length_append, List.length_singleton]; omega), ← chain_eq, h9]
      rfl
  | @defined x =>
    refine good_prefix (plain_name _) (by decide) (.plain (plain_name x) .nil)
      ((noneOutside_cons (plain_name x)).2 ⟨by simp [Tok.lvl], noneOutside_nil _⟩) fun n _ => ?_
    unfold makeUnary
    rw [definedArg_some.2 ⟨rfl, .inl rfl⟩]
  | @definedParen x =>
    refine good_prefix (plain_name _) (by decide) (nested_group .paren (a := [.name x]) (.plain (plain_name x) .nil))
      (noneOutside_group .paren (a := [.name x]) (.plain (plain_name x) .nil)) fun n _ => ?_
    unfold makeUnary
    rw [definedArg_some.2 ⟨rfl, .inr rfl⟩]
  | @times s v e ts hv _ ih =>
    refine good_prefix (plain_num s) (by simp [Tok.lvl]) ih.nested ih.none fun n hl => ?_
    have hr := ih.run n hl
    have hne := ih.ne
    cases ts with
    | nil => exact absurd rfl hne
    | cons u us =>
      unfold makeUnary
      rw [definedArg_none (by simp)]
      simp only [stringToInt_numeral hv, Out.ok_bind, hr]
  | @forever e ts _ ih =>
    refine good_prefix (plain_name _) (by decide) ih.nested ih.none fun n hl => ?_
    unfold makeUnary
    rw [definedArg_none (by decide)]
    simp only [if_true, if_neg ih.ne, ih.run n hl, Out.ok_bind]
  | @reversed e ts _ ih =>
    refine good_prefix (plain_sym rfl rfl) (by decide) ih.nested ih.none fun n hl => ?_
    have hr := ih.run n hl
    have hne := ih.ne
    cases ts with
    | nil => exact absurd rfl hne
    | cons u us =>
      unfold makeUnary
      rw [definedArg_none (by simp)]
      simp only [Out.ok_bind, hr]
  | @not e ts _ ih =>
    refine good_prefix (plain_sym rfl rfl) (by decide) ih.nested ih.none fun n hl => ?_
    have hr := ih.run n hl
    have hne := ih.ne
    cases ts with
    | nil => exact absurd rfl hne
    | cons u us =>
      unfold makeUnary
      rw [definedArg_none (by simp)]
      simp only [Out.ok_bind, hr]
  | @increment x ts hi =>
    refine good_prefix (plain_sym rfl rfl) (by decide) (.plain (plain_name x) hi.1)
      ((noneOutside_cons (plain_name x)).2 ⟨by simp [Tok.lvl], noneOutside_mono hi.2 fun t h => (anyOperator_iff t).2 h⟩) fun n hl => ?_
    unfold makeUnary
    rw [definedArg_none (by simp)]
  | @decrement x ts hi =>
    refine good_prefix (plain_sym rfl rfl) (by decide) (.plain (plain_name x) hi.1)
      ((noneOutside_cons (plain_name x)).2 ⟨by simp [Tok.lvl], noneOutside_mono hi.2 fun t h => (anyOperator_iff t).2 h⟩) fun n hl => ?_
    unfold makeUnary
    rw [definedArg_none (by simp)]
  | @echo s ts hi =>
    refine good_prefix (plain_name _) (by decide) (.plain (plain_lit _ s) hi.1)
      ((noneOutside_cons (plain_lit _ s)).2 ⟨by simp [Tok.lvl], noneOutside_mono hi.2 fun t h => (anyOperator_iff t).2 h⟩) fun n hl => ?_
    unfold makeUnary
    rw [definedArg_none (by decide)]
    simp only [show ¬ "echo".toList = "repeat".toList by decide, if_false, if_true]
  | @save x ts hi =>
    refine good_prefix (plain_name _) (by decide) (.plain (plain_name x) hi.1)
      ((noneOutside_cons (plain_name x)).2 ⟨by simp [Tok.lvl], noneOutside_mono hi.2 fun t h => (anyOperator_iff t).2 h⟩) fun n hl => ?_
    unfold makeUnary
    rw [definedArg_none (by decide)]
    simp only [show ¬ "save".toList = "repeat".toList by decide, show ¬ "save".toList = "echo".toList by decide, if_false, if_true]
  | @call x items hx hdef _ hc ih =>
    have hn : Nested (commas (items.map (·.2))) := by
      refine nested_commas fun ts hts => ?_
      obtain ⟨i, hi, rfl⟩ := List.mem_map.1 hts
      exact (ih i hi).nested
    refine good_prefix (plain_name x) (by simp [Tok.lvl]) (nested_group .paren hn) (noneOutside_group .paren hn) fun n hl => ?_
    have hd : definedArg (.name x) (.sym .openParen :: (commas (items.map (·.2)) ++ [.sym .closeParen])) = none := by
      cases e : definedArg (.name x) (.sym .openParen :: (commas (items.map (·.2)) ++ [.sym .closeParen])) with
      | none => rfl
      | some y =>
        exfalso
        obtain ⟨e1, e2⟩ := definedArg_some.1 e
        injection e1 with e1
        rcases e2 with e2 | e2
        · injection e2 with e2 _; cases e2
        · injection e2 with _ e2
          have e3 : commas (items.map (·.2)) ++ [.sym .closeParen] = [.name y] ++ [.sym .closeParen] := e2
          have e4 := List.append_cancel_right e3
          refine hdef e1 y ?_
          rcases items with _ | ⟨i, _ | ⟨j, items⟩⟩
          · simp [commas] at e4
          · have e5 : i.2 = [.name y] := e4
            simp [e5]
          ·
            simp only [List.map_cons, commas_cons2] at e4
            have gi := (ih i (by simp)).ne
            cases hi : i.2 with
            | nil => exact absurd hi gi
            | cons a b =>
              rw [hi] at e4
              injection e4 with _ e4
              simp at e4
    rw [makeUnary_name hd hx, if_pos (by simp), isEnclosed_true .paren hn, Out.ok_bind, if_pos rfl, List.tail_cons, List.dropLast_concat]
    have : makeArgs (makeExpr L n) (commas (items.map (·.2))) = .ok (items.map (·.1)) := by
      by_cases h0 : items = []
      · subst h0; rfl
      · unfold makeArgs
        have : commas (items.map (·.2)) ≠ [] := by
          cases items with
          | nil => exact absurd rfl h0
          | cons i items =>
            have gi := (ih i (by simp)).ne
            cases items with
            | nil => exact gi
            | cons j items => simp only [List.map_cons, commas_cons2]; simp
        rw [if_pos this]
        refine argsLoop_items h0 ih hc (fun i hi => ?_) _ (by omega)
        have := length_commas_le (a := i.2) (l := items.map (·.2)) (List.mem_map.2 ⟨i, hi, rfl⟩)
        simp only [List.length_cons, List.length_append, List.length_nil] at hl
        omega
    rw [this]; rfl
  | @keyword x e hk =>
    refine good_prefix (plain_name x) (by simp [Tok.lvl]) .nil (noneOutside_nil _) fun n hl => ?_
    have hx : ¬ Prefix x := by
      unfold Prefix
      cases hk <;> decide
    rw [makeUnary_name ?_ hx, if_neg (by simp), if_neg (by simp), nameNode_keyword hk]
    cases e' : definedArg (.name x) [] with
    | none => rfl
    | some y => obtain ⟨-, e2 | e2⟩ := definedArg_some.1 e' <;> cases e2
  | @var x hk hx =>
    refine good_prefix (plain_name x) (by simp [Tok.lvl]) .nil (noneOutside_nil _) fun n hl => ?_
    rw [makeUnary_name ?_ hx, if_neg (by simp), if_neg (by simp)]
    · rw [nameNode_var hk]
    · cases e' : definedArg (.name x) [] with
      | none => rfl
      | some y => obtain ⟨-, e2 | e2⟩ := definedArg_some.1 e' <;> cases e2
  | @string s =>
    refine good_prefix (plain_lit _ s) (by simp [Tok.lvl]) .nil (noneOutside_nil _) fun n hl => ?_
    unfold makeUnary
    rw [definedArg_none (by simp)]; simp [literal]
  | @pn s e h =>
    refine good_prefix (plain_lit _ s) (by simp [Tok.lvl]) .nil (noneOutside_nil _) fun n hl => ?_
    unfold makeUnary
    rw [definedArg_none (by simp)]; simp [literal, h]
  | @transp s e h =>
    refine good_prefix (plain_lit _ s) (by simp [Tok.lvl]) .nil (noneOutside_nil _) fun n hl => ?_
    unfold makeUnary
    rw [definedArg_none (by simp)]; simp [literal, h]
  | @regex s e h =>
    refine good_prefix (plain_lit _ s) (by simp [Tok.lvl]) .nil (noneOutside_nil _) fun n hl => ?_
    unfold makeUnary
    rw [definedArg_none (by simp)]; simp [literal, h]
  | @number s v hv =>
    refine good_prefix (plain_num s) (by simp [Tok.lvl]) .nil (noneOutside_nil _) fun n hl => ?_
    unfold makeUnary
    rw [definedArg_none (by simp)]; simp [literal, stringToInt_numeral hv]

end Ringing.Siril
