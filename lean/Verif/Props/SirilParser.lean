import Verif.Lemmas.SirilParser5
/-! C68: expressions of gsiril are read as the grammar says. -/
namespace Ringing.Siril
open Grammar Spec

/-- Every list of tokens that spells an expression is read as that expression. -/
theorem C68_reads {L : Readers} {e : Expr} {ts : List Tok} (h : Spells L 0 e ts) : makeExprC L ts = .ok e :=
  (spells_good h).run _ (by omega)

/-- Nothing else is read: if the brackets match, or there is no `++`, `--`, `echo` or `save`, what is read is spelt by the tokens. -/
theorem C68_only {L : Readers} {e : Expr} {ts : List Tok} (hb : Nested ts ∨ ∀ t ∈ ts, ¬ Careless t) (hn : SmallNumbers ts)
    (h : makeExprC L ts = .ok e) : Spells L 0 e ts :=
  (reads_makeExpr L _).zero h ⟨hb, hn⟩

/-- The grammar is not ambiguous. -/
theorem C68_unique {L : Readers} {e e' : Expr} {ts : List Tok} (h : Spells L 0 e ts) (h' : Spells L 0 e' ts) : e = e' := by
  have := (C68_reads h).symm.trans (C68_reads h')
  injection this

/-- What spells no expression is rejected with an exception; the parser always ends, and nothing it does is undefined. -/
theorem C68_total {L : Readers} (hL : (∀ s, (∃ e, L.pn s = .ok e) ∨ ∃ x, L.pn s = .throw x) ∧
      (∀ s, (∃ e, L.transp s = .ok e) ∨ ∃ x, L.transp s = .throw x) ∧ (∀ s, (∃ e, L.regex s = .ok e) ∨ ∃ x, L.regex s = .throw x))
    (ts : List Tok) : (∃ e, makeExprC L ts = .ok e) ∨ ∃ x, makeExprC L ts = .throw x :=
  ends_makeExpr ⟨hL.1, hL.2.1, hL.2.2⟩ (by omega)

theorem C68_rejects {L : Readers} (hL : (∀ s, (∃ e, L.pn s = .ok e) ∨ ∃ x, L.pn s = .throw x) ∧
      (∀ s, (∃ e, L.transp s = .ok e) ∨ ∃ x, L.transp s = .throw x) ∧ (∀ s, (∃ e, L.regex s = .ok e) ∨ ∃ x, L.regex s = .throw x))
    {ts : List Tok} (hb : Nested ts ∨ ∀ t ∈ ts, ¬ Careless t) (hn : SmallNumbers ts) (h : ¬ ∃ e, Spells L 0 e ts) :
    ∃ x, makeExprC L ts = .throw x :=
  (C68_total hL ts).resolve_left fun ⟨e, he⟩ => h ⟨e, C68_only hb hn he⟩

/-- What is read without `++`, `--`, `echo` and `save` has its brackets matched. -/
theorem C68_brackets {L : Readers} {e : Expr} {ts : List Tok} (hb : ∀ t ∈ ts, ¬ Careless t) (hn : SmallNumbers ts)
    (h : makeExprC L ts = .ok e) : Nested ts :=
  (spells_good (C68_only (.inr hb) hn h)).nested

/-- Operators that bind equally strongly are grouped from the right, whichever they are: `10 - 3 - 2` is `10 - (3 - 2)`. -/
theorem C68_right {L : Readers} {p : Nat} {y z : Sym} {f g : Expr → Expr → Expr} {a b c : Expr} {l m r : List Tok}
    (hy : Operator p y f) (hz : Operator p z g) (ha : Spells L (p + 1) a l) (hb : Spells L (p + 1) b m) (hc : Spells L (p + 1) c r) :
    makeExprC L (l ++ .sym y :: (m ++ .sym z :: r)) = .ok (f a (g b c)) := by
  have h8 : 1 ≤ p ∧ p ≤ 8 := by cases hy <;> omega
  exact C68_reads (spells_down (by omega) (.binary hy ha (.binary hz hb (.up (by omega) hc))) (by omega))

/-- The operator that binds more strongly takes its operands first, on either side. -/
theorem C68_precedence {L : Readers} {p q : Nat} {y z : Sym} {f g : Expr → Expr → Expr} {a b c : Expr} {l m r : List Tok}
    (hy : Operator p y f) (hz : Operator q z g) (hpq : p < q) (ha : Spells L (q + 1) a l) (hb : Spells L (q + 1) b m)
    (hc : Spells L (q + 1) c r) :
    makeExprC L (l ++ .sym y :: (m ++ .sym z :: r)) = .ok (f a (g b c)) ∧
    makeExprC L (l ++ .sym z :: (m ++ .sym y :: r)) = .ok (f (g a b) c) := by
  have h8 : 1 ≤ p ∧ p ≤ 8 := by cases hy <;> omega
  have h9 : 1 ≤ q ∧ q ≤ 8 := by cases hz <;> omega
  have hq : ∀ {x ts}, Spells L (q + 1) x ts → Spells L q x ts := fun h => .up (by omega) h
  refine ⟨C68_reads (spells_down (q := p) (by omega) (.binary hy (spells_down (by omega) ha (by omega))
    (spells_down (q := q) (by omega) (.binary hz hb (hq hc)) (by omega))) (by omega)), ?_⟩
  have := Spells.binary hy (spells_down (q := q) (by omega) (.binary hz ha (hq hb)) (by omega))
    (spells_down (q := q + 1) (p := p) (by omega) hc (by omega))
  rw [List.append_assoc, List.cons_append] at this
  exact C68_reads (spells_down (by omega) this (by omega))

/-- Brackets group: what stands in them is one operand, whatever it is. -/
theorem C68_group {L : Readers} {p : Nat} {y : Sym} {f : Expr → Expr → Expr} {a b : Expr} {l r : List Tok}
    (hy : Operator p y f) (ha : Spells L 0 a l) (hb : Spells L 0 b r) :
    makeExprC L (.sym .openParen :: (l ++ [.sym .closeParen]) ++ .sym y :: (.sym .openParen :: (r ++ [.sym .closeParen]))) = .ok (f a b) := by
  have h8 : 1 ≤ p ∧ p ≤ 8 := by cases hy <;> omega
  exact C68_reads (spells_down (by omega) (.binary hy (spells_down (le_refl _) (.paren ha) (by omega))
    (spells_down (le_refl _) (.paren hb) (by omega))) (by omega))

/-! ### Findings -/

/-- What follows the variable after `++`, `--` and `save` and the string after `echo` is ignored. -/
theorem C68_trailing_finding (L : Readers) (x : Str) {ts : List Tok} (h : Ignored ts) :
    makeExprC L (.sym .increment :: .name x :: ts) = makeExprC L [.sym .increment, .name x] ∧
    makeExprC L (.sym .decrement :: .name x :: ts) = makeExprC L [.sym .decrement, .name x] ∧
    makeExprC L (.name "save".toList :: .name x :: ts) = makeExprC L [.name "save".toList, .name x] ∧
    makeExprC L (.name "echo".toList :: .lit .string x :: ts) = makeExprC L [.name "echo".toList, .lit .string x] := by
  have h0 : Ignored [] := ⟨.nil, noneOutside_nil _⟩
  have d : ∀ {e us}, Spells L 9 e us → makeExprC L us = .ok e := fun h => C68_reads (spells_down (le_refl _) h (by omega))
  exact ⟨(d (.increment h)).trans (d (.increment h0)).symm, (d (.decrement h)).trans (d (.decrement h0)).symm,
    (d (.save h)).trans (d (.save h0)).symm, (d (.echo h)).trans (d (.echo h0)).symm⟩

/-- Among the ignored tokens brackets of different kinds match each other. -/
theorem C68_mixed_finding (L : Readers) (x : Str) :
    makeExprC L [.sym .increment, .name x, .sym .openParen, .sym .closeBrack] = .ok (.incr x 1) ∧
      ¬ Nested [.sym .increment, .name x, .sym .openParen, .sym .closeBrack] := by
  refine ⟨rfl, fun h => ?_⟩
  have h1 := nested_plain_inv (plain_sym rfl rfl) h
  have h2 := nested_plain_inv (plain_name x) h1
  generalize hw : [Tok.sym Sym.openParen, Tok.sym Sym.closeBrack] = w at h2
  cases h2 with
  | nil => cases hw
  | plain h _ => injection hw with e _; exact h.1 ⟨_, _, .paren, e.symm⟩
  | @group o c a ts hp ha hts =>
    injection hw with e1 e2
    injection e1 with e1
    subst e1
    cases hp
    rcases a with _ | ⟨t, a⟩
    · injection e2 with e2 _; cases e2
    · injection e2 with _ e3; cases a <;> cases e3

/-- Empty braces and brackets are accepted: the exceptions "Empty braces" and "Empty brackets" are never thrown; empty parentheses are
rejected. -/
theorem C68_empty_finding {L : Readers} {star : Expr} (h : L.regex ['*'] = .ok star) :
    makeExprC L [.sym .openBrace, .sym .closeBrace] = .ok (.ifMatch star .nop none) ∧
    makeExprC L [.sym .openBrack, .sym .closeBrack] = .ok (.array []) ∧
    makeExprC L [.sym .openParen, .sym .closeParen] = .throw .runtimeError := by
  refine ⟨?_, rfl, rfl⟩
  have := Spells.braces (L := L) (as := [(⟨star, none, .nop, []⟩, 0)]) (e := .ifMatch star .nop none)
    (by simp) (by simp) (by simpa using ⟨h, noneOutside_nil _⟩) (by simp) (by simp) (by simpa [Alt.toks] using noneOutside_nil _) (by simp) trivial rfl
  exact C68_reads (spells_down (le_refl _) this (by omega))

/-- A semicolon straight after the opening brace makes a first alternative that is empty and matches always: what follows is
never used. -/
theorem C68_first_semicolon_finding {L : Readers} {star e : Expr} {ts : List Tok} (h : L.regex ['*'] = .ok star) (hs : Spells L 0 e ts)
    (hc : NoneOutside (· = .sym .colon) ts) (hsc : NoneOutside (· = .sym .semicolon) ts) :
    makeExprC L (.sym .openBrace :: .sym .semicolon :: (ts ++ [.sym .closeBrace])) =
      .ok (.ifMatch star .nop (some (.ifMatch star e none))) := by
  have hne : ts ≠ [] := (spells_good hs).ne
  have := Spells.braces (L := L) (as := [(⟨star, none, .nop, []⟩, 1), (⟨star, none, e, ts⟩, 0)]) (e := .ifMatch star .nop (some (.ifMatch star e none)))
    (by simp) (by simp) (by simpa using ⟨⟨h, noneOutside_nil _⟩, h, hc⟩) (by simpa using fun _ => hs) (by simpa using fun h => absurd h hne)
    (by simpa [Alt.toks] using ⟨noneOutside_nil _, hsc⟩) (by simpa [Alt.toks] using hne) ⟨le_refl _, trivial⟩ rfl
  simpa [altToks, Alt.toks] using C68_reads (spells_down (le_refl _) this (by omega))

/-- A comma may stand after the last element of an array, not after the last argument of a function. -/
theorem C68_comma_finding {L : Readers} (f : Str) {e : Expr} {ts : List Tok} (hs : Spells L 0 e ts) (hc : NoneOutside (· = .sym .comma) ts)
    (hf : ¬ Prefix f) :
    makeExprC L (.sym .openBrack :: (ts ++ [.sym .comma] ++ [.sym .closeBrack])) = .ok (.array [e]) ∧
    makeExprC L (.sym .openBrack :: (ts ++ [.sym .closeBrack])) = .ok (.array [e]) ∧
    makeExprC L (.name f :: .sym .openParen :: (ts ++ [.sym .comma] ++ [.sym .closeParen])) = .throw .runtimeError := by
  have arr : ∀ b : Bool, makeExprC L (.sym .openBrack :: (ts ++ (if b then [.sym .comma] else []) ++ [.sym .closeBrack])) = .ok (.array [e]) := by
    intro b
    have := Spells.array (L := L) (items := [(e, ts)]) (trail := b) (by simpa using hs) (by simpa using hc) (by simp)
    exact C68_reads (spells_down (le_refl _) this (by omega))
  have hg := spells_good hs
  refine ⟨arr true, by simpa using arr false, ?_⟩
  have hn : Nested (ts ++ [.sym .comma]) := nested_append hg.nested (.plain plain_comma .nil)
  have hng := nested_group .paren hn
  have h9 : NoneOutside (fun t => t.lvl < 9) (.name f :: .sym .openParen :: (ts ++ [.sym .comma] ++ [.sym .closeParen])) :=
    (noneOutside_cons (plain_name f)).2 ⟨by simp [Tok.lvl], noneOutside_group .paren hn⟩
  have hd := nested_depth (Nested.plain (plain_name f) hng)
  have hda : definedArg (.name f) (.sym .openParen :: (ts ++ [.sym .comma] ++ [.sym .closeParen])) = none := by
    cases hx : definedArg (.name f) (.sym .openParen :: (ts ++ [.sym .comma] ++ [.sym .closeParen])) with
    | none => rfl
    | some x =>
      rcases (definedArg_some.1 hx).2 with h | h <;> have := congrArg List.length h <;>
        simp at this
      exact absurd this hg.ne
  rw [makeExprC, makeExpr_step (notEnclosed_plain (plain_name f) _), assignLevel_none hd (noneOutside_mono h9 fun t h => by omega),
    levels_none hd h9, makeUnary_name hda hf, if_pos (by simp), isEnclosed_true .paren hn, Out.ok_bind, if_pos rfl, List.tail_cons,
    List.dropLast_concat, makeArgs, if_pos (by simp), argsLoop, find1_found plain_comma hg.nested hc, Out.ok_bind]
  dsimp only
  rw [if_neg hg.ne, hg.run _ (by simp; omega), Out.ok_bind, List.length_append, List.length_singleton, argsLoop]
  rfl

/-- A number from 2 ^ 31 on is cut down to an `int`, without a word: 2 ^ 32 + 1 is read as 1. -/
theorem C68_wrap_finding (L : Readers) : makeExprC L [.num "4294967297".toList] = .ok (.int 1) ∧
    makeExprC L [.num "2147483648".toList] = .ok (.int (-2147483648)) := by
  have h : ∀ s, makeExprC L [.num s] = stringToInt s >>= fun v => .ok (.int v) := fun s => rfl
  have h1 : stringToInt "4294967297".toList = .ok 1 := by decide +kernel
  have h2 : stringToInt "2147483648".toList = .ok (-2147483648) := by decide +kernel
  rw [h, h, h1, h2]
  exact ⟨rfl, rfl⟩

/-! ### Examples -/

/-- Place notation is read as its text, for the examples. -/
private def L₀ : Readers := ⟨fun s => .ok (.pn [] s), fun _ => .throw .runtimeError, fun s => .ok (.str s {})⟩

private theorem numeral {s : String} {v : Int} (h : s.toList ≠ [] ∧ (s.toList.all fun c => '0' ≤ c && c ≤ '9') = true ∧
    v = number s.toList ∧ number s.toList < 2 ^ 31) : Numeral s.toList v := by
  refine ⟨h.1, fun c hc => ?_, h.2.2⟩
  have := List.all_eq_true.1 h.2.1 c hc
  simpa [Digit] using this

/-- `10 - 3 - 2`, by `C68_right`. -/
example : makeExprC L₀ [.num "10".toList, .sym .minus, .num "3".toList, .sym .minus, .num "2".toList] =
    .ok (.add (.int 10) (.add (.int 3) (.int 2) (-1)) (-1)) :=
  C68_right (l := [.num "10".toList]) (m := [.num "3".toList]) .minus .minus (.up (by omega) (.number (numeral (by decide +kernel))))
    (.up (by omega) (.number (numeral (by decide +kernel)))) (.up (by omega) (.number (numeral (by decide +kernel))))

/-- `p = 3 ( a , b ) , { /1*/ : b ; c }`: a spelling with brackets of two kinds. -/
example : Spells L₀ 0 (.assign "p".toList (.list (.rep 3 (.list (.sym "a".toList) (.sym "b".toList)))
      (.ifMatch (.str "1*".toList {}) (.sym "b".toList) (some (.ifMatch (.str "*".toList {}) (.sym "c".toList) none)))))
    [.name "p".toList, .sym .assignment, .num "3".toList, .sym .openParen, .name "a".toList, .sym .comma, .name "b".toList, .sym .closeParen,
      .sym .comma, .sym .openBrace, .lit .regex "1*".toList, .sym .colon, .name "b".toList, .sym .semicolon, .name "c".toList, .sym .closeBrace] := by
  have v : ∀ {x : Str}, (x = "a".toList ∨ x = "b".toList ∨ x = "c".toList) → Spells L₀ 9 (.sym x) [.name x] := by
    intro x hx
    refine .var ?_ ?_
    · rintro ⟨e, he⟩
      rcases hx with h | h | h <;> subst h <;> cases he
    · unfold Prefix
      rcases hx with h | h | h <;> subst h <;> decide
  refine .assign (spells_down (by omega) (Spells.binary (p := 1) .comma (l := [_, _, _, _, _, _])
    (spells_down (le_refl _) (.times (numeral (by decide +kernel)) (.paren (spells_down (by omega) (Spells.binary (p := 1) .comma (l := [_])
      (spells_down (le_refl _) (v (by simp)) (by omega)) (spells_down (le_refl _) (v (by simp)) (by omega))) (by omega)))) (by omega))
    (spells_down (le_refl _) (Spells.braces (as := [(⟨.str "1*".toList {}, some [.lit .regex "1*".toList], .sym "b".toList, [.name "b".toList]⟩, 1),
      (⟨.str "*".toList {}, none, .sym "c".toList, [.name "c".toList]⟩, 0)]) ?_ ?_ ?_ ?_ ?_ ?_ ?_ ?_ rfl) (by omega))) (by omega))
  · simp only [List.mem_cons, List.not_mem_nil, or_false, forall_eq_or_imp, forall_eq, Option.some.injEq, reduceCtorEq, false_imp_iff, implies_true, and_true]
    rintro ts rfl
    exact spells_down (le_refl _) (.regex rfl) (by omega)
  · simp only [List.mem_cons, List.not_mem_nil, or_false, forall_eq_or_imp, forall_eq, Option.some.injEq, reduceCtorEq, false_imp_iff, implies_true, and_true]
    rintro ts rfl
    exact (noneOutside_cons (plain_lit _ _)).2 ⟨by simp, noneOutside_nil _⟩
  · simp only [List.mem_cons, List.not_mem_nil, or_false, forall_eq_or_imp, forall_eq, reduceCtorEq, false_imp_iff, true_and, forall_const]
    exact ⟨rfl, (noneOutside_cons (plain_name _)).2 ⟨by simp, noneOutside_nil _⟩⟩
  · simp only [List.mem_cons, List.not_mem_nil, or_false, forall_eq_or_imp, forall_eq]
    exact ⟨fun _ => spells_down (le_refl _) (v (by simp)) (by omega), fun _ => spells_down (le_refl _) (v (by simp)) (by omega)⟩
  · simp
  · simp only [List.mem_cons, List.not_mem_nil, or_false, forall_eq_or_imp, forall_eq, Alt.toks]
    refine ⟨(noneOutside_cons (plain_lit _ _)).2 ⟨by simp, (noneOutside_cons plain_colon).2 ⟨by simp, ?_⟩⟩, ?_⟩ <;>
      exact (noneOutside_cons (plain_name _)).2 ⟨by simp, noneOutside_nil _⟩
  · simp [Alt.toks]
  · exact ⟨le_refl _, trivial⟩

/-- Rejected: `a + * b`, `( a ]`. -/
example : makeExprC L₀ [.name "a".toList, .sym .plus, .sym .times, .name "b".toList] = .throw .runtimeError := rfl
example : makeExprC L₀ [.sym .openParen, .name "a".toList, .sym .closeBrack] = .throw .runtimeError := rfl

end Ringing.Siril
