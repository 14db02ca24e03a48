import Verif.Lemmas.SirilParser
/-
`make_expr` of apps/gsiril/parser.cpp reads what the grammar spells.
-/
namespace Ringing.Siril
open Grammar

/-- How strongly a token binds. -/
def Tok.lvl : Tok → Nat
  | .sym .assignment | .sym .appendAssign | .sym .immAssign => 0
  | .sym .comma => 1
  | .sym .logicOr => 2
  | .sym .logicAnd => 3
  | .sym .equals | .sym .notEquals | .sym .greater | .sym .less | .sym .greaterEq | .sym .lessEq => 4
  | .sym .merge => 5
  | .sym .leftShift | .sym .rightShift => 6
  | .sym .plus | .sym .minus => 7
  | .sym .times | .sym .append | .sym .divide | .sym .modulo => 8
  | _ => 9

theorem assign_lvl (t : Tok) : Tok.isOne [.assignment, .appendAssign, .immAssign] t = true ↔ t.lvl = 0 := by
  match t with
  | .name _ | .num _ | .lit _ _ => simp [Tok.isOne, Tok.lvl]
  | .sym y => cases y <;> decide

/-- The level of an operator among the levels. -/
theorem operator_level {p : Nat} {y : Sym} {f : Expr → Expr → Expr} (h : Operator p y f) :
    ∃ pre ys post, levels = pre ++ ys :: post ∧ (∀ t, Tok.isOne ys t = true ↔ t.lvl = p) ∧
      (∀ zs ∈ pre, ∀ t, Tok.isOne zs t = true → t.lvl < p) ∧ (∀ a b, binNode y a b = some (f a b)) ∧
      (Tok.sym y).lvl = p ∧ 1 ≤ p ∧ p ≤ 8 := by
  have key : ∀ i : Nat, (hi : i < levels.length) → (∀ t, Tok.isOne levels[i] t = true ↔ t.lvl = i + 1) := by
    intro i hi t
    match t with
    | .name _ | .num _ | .lit _ _ =>
      simp only [Tok.isOne, Tok.lvl]
      have : levels.length = 8 := rfl
      constructor
      · intro h; cases h
      · intro h; omega
    | .sym y => revert i; cases y <;> decide
  have split : ∀ i : Nat, (hi : i < levels.length) → i + 1 = p → (∀ a b, binNode y a b = some (f a b)) → (Tok.sym y).lvl = p →
      ∃ pre ys post, levels = pre ++ ys :: post ∧ (∀ t, Tok.isOne ys t = true ↔ t.lvl = p) ∧
      (∀ zs ∈ pre, ∀ t, Tok.isOne zs t = true → t.lvl < p) ∧ (∀ a b, binNode y a b = some (f a b)) ∧
      (Tok.sym y).lvl = p ∧ 1 ≤ p ∧ p ≤ 8 := by
    intro i hi hp hb hl
    have h8 : levels.length = 8 := rfl
    refine ⟨levels.take i, levels[i], levels.drop (i + 1), by simp, fun t => by rw [key i hi, hp], ?_, hb, hl, by omega, by omega⟩
    intro zs hz t ht
    obtain ⟨j, hj, rfl⟩ := List.mem_iff_getElem.1 hz
    rw [List.length_take] at hj
    rw [List.getElem_take] at ht
    have := (key j (by omega) t).1 ht
    omega
  cases h
  · exact split 0 (by decide) rfl (fun _ _ => rfl) rfl
  · exact split 1 (by decide) rfl (fun _ _ => rfl) rfl
  · exact split 2 (by decide) rfl (fun _ _ => rfl) rfl
  · exact split 3 (by decide) rfl (fun _ _ => rfl) rfl
  · exact split 3 (by decide) rfl (fun _ _ => rfl) rfl
  · exact split 3 (by decide) rfl (fun _ _ => rfl) rfl
  · exact split 3 (by decide) rfl (fun _ _ => rfl) rfl
  · exact split 3 (by decide) rfl (fun _ _ => rfl) rfl
  · exact split 3 (by decide) rfl (fun _ _ => rfl) rfl
  · exact split 4 (by decide) rfl (fun _ _ => rfl) rfl
  · exact split 5 (by decide) rfl (fun _ _ => rfl) rfl
  · exact split 5 (by decide) rfl (fun _ _ => rfl) rfl
  · exact split 6 (by decide) rfl (fun _ _ => rfl) rfl
  · exact split 6 (by decide) rfl (fun _ _ => rfl) rfl
  · exact split 7 (by decide) rfl (fun _ _ => rfl) rfl
  · exact split 7 (by decide) rfl (fun _ _ => rfl) rfl
  · exact split 7 (by decide) rfl (fun _ _ => rfl) rfl
  · exact split 7 (by decide) rfl (fun _ _ => rfl) rfl

theorem plain_sym {y : Sym} (h : (Tok.sym y).opens = false) (h' : (Tok.sym y).closes = false) : Plain (.sym y) := (plain_iff _).2 ⟨h, h'⟩

theorem plain_lvl {t : Tok} (h : t.lvl ≠ 9) : Plain t := by
  rw [plain_iff]
  match t with
  | .name _ | .num _ | .lit _ _ => exact ⟨rfl, rfl⟩
  | .sym y => cases y <;> first | exact ⟨rfl, rfl⟩ | exact absurd rfl h

theorem plain_name (s : Str) : Plain (.name s) := (plain_iff _).2 ⟨rfl, rfl⟩
theorem plain_num (s : Str) : Plain (.num s) := (plain_iff _).2 ⟨rfl, rfl⟩
theorem plain_lit (k : LitKind) (s : Str) : Plain (.lit k s) := (plain_iff _).2 ⟨rfl, rfl⟩

theorem anyOperator_iff (t : Tok) : AnyOperator t ↔ t.lvl < 9 := by
  constructor
  · rintro (rfl | rfl | rfl | ⟨p, y, f, h, rfl⟩)
    · decide
    · decide
    · decide
    · obtain ⟨_, _, _, _, _, _, _, h1, h2, h3⟩ := operator_level h
      omega
  · intro h
    match t with
    | .name _ | .num _ | .lit _ _ => exact absurd h (Nat.lt_irrefl 9)
    | .sym y =>
      revert h
      cases y <;> first
        | (intro h; exact absurd h (by decide))
        | (intro _; exact .inl rfl)
        | (intro _; exact .inr (.inl rfl))
        | (intro _; exact .inr (.inr (.inl rfl)))
        | (intro _; exact .inr (.inr (.inr ⟨_, _, _, .comma, rfl⟩)))
        | (intro _; exact .inr (.inr (.inr ⟨_, _, _, .or, rfl⟩)))
        | (intro _; exact .inr (.inr (.inr ⟨_, _, _, .and, rfl⟩)))
        | (intro _; exact .inr (.inr (.inr ⟨_, _, _, .eq, rfl⟩)))
        | (intro _; exact .inr (.inr (.inr ⟨_, _, _, .ne, rfl⟩)))
        | (intro _; exact .inr (.inr (.inr ⟨_, _, _, .gt, rfl⟩)))
        | (intro _; exact .inr (.inr (.inr ⟨_, _, _, .lt, rfl⟩)))
        | (intro _; exact .inr (.inr (.inr ⟨_, _, _, .ge, rfl⟩)))
        | (intro _; exact .inr (.inr (.inr ⟨_, _, _, .le, rfl⟩)))
        | (intro _; exact .inr (.inr (.inr ⟨_, _, _, .merge, rfl⟩)))
        | (intro _; exact .inr (.inr (.inr ⟨_, _, _, .left, rfl⟩)))
        | (intro _; exact .inr (.inr (.inr ⟨_, _, _, .right, rfl⟩)))
        | (intro _; exact .inr (.inr (.inr ⟨_, _, _, .plus, rfl⟩)))
        | (intro _; exact .inr (.inr (.inr ⟨_, _, _, .minus, rfl⟩)))
        | (intro _; exact .inr (.inr (.inr ⟨_, _, _, .times, rfl⟩)))
        | (intro _; exact .inr (.inr (.inr ⟨_, _, _, .append, rfl⟩)))
        | (intro _; exact .inr (.inr (.inr ⟨_, _, _, .divide, rfl⟩)))
        | (intro _; exact .inr (.inr (.inr ⟨_, _, _, .modulo, rfl⟩)))

/-- Not enclosed in brackets of any kind. -/
def NotEnclosed (ts : List Tok) : Prop := ∀ o c, Pair o c → isEnclosed o c ts = .ok false

theorem notEnclosed_append {l r : List Tok} (hl : Nested l) (h0 : l ≠ []) (hr : r ≠ []) : NotEnclosed (l ++ r) :=
  fun _ _ hp => isEnclosed_false hp hl h0 hr

theorem notEnclosed_plain {t : Tok} (h : Plain t) (ts : List Tok) : NotEnclosed (t :: ts) :=
  fun o c hp => isEnclosed_head ts (by rintro rfl; exact h.1 ⟨o, c, hp, rfl⟩)

theorem makeExpr_step {L : Readers} {n : Nat} {t : Tok} {ts : List Tok} (h : NotEnclosed (t :: ts)) :
    makeExpr L (n + 1) (t :: ts) =
      assignLevel (makeExpr L n) (t :: ts) (levels.foldr (binLevel (makeExpr L n) (t :: ts)) (makeUnary L (makeExpr L n) t ts)) := by
  rw [makeExpr, h _ _ .paren, Out.ok_bind, if_neg (by simp), h _ _ .brace, Out.ok_bind, if_neg (by simp), h _ _ .brack, Out.ok_bind,
    if_neg (by simp)]

theorem assignLevel_none {mk : List Tok → Out Expr} {ts : List Tok} {rest : Out Expr} (hd : depth ts = 0)
    (h : NoneOutside (fun t => t.lvl < 1) ts) : assignLevel mk ts rest = rest := by
  unfold assignLevel
  rw [findFirst_none.2 ⟨by omega, (absent_iff (P := fun t => t.lvl < 1) fun t _ => by rw [assign_lvl]; omega).2 h⟩]
  rfl

theorem binLevels_none {mk : List Tok → Out Expr} {ts : List Tok} {rest : Out Expr} {p : Nat} (hd : depth ts = 0)
    (h : NoneOutside (fun t => t.lvl < p) ts) {pre : List (List Sym)} (hp : ∀ zs ∈ pre, ∀ t, Tok.isOne zs t = true → t.lvl < p) :
    pre.foldr (binLevel mk ts) rest = rest := by
  induction pre with
  | nil => rfl
  | cons zs pre ih =>
    rw [List.foldr_cons, binLevel]
    rw [findFirst_none.2 ⟨by omega, fun l t r e hd' hpl => ?_⟩]
    · exact ih fun zs hz => hp zs (by simp [hz])
    · cases hz : Tok.isOne zs t
      · rfl
      · exact absurd (hp zs (by simp) t hz) (h l t r e (by omega) hpl)

theorem levels_none {mk : List Tok → Out Expr} {ts : List Tok} {rest : Out Expr} (hd : depth ts = 0)
    (h : NoneOutside (fun t => t.lvl < 9) ts) : levels.foldr (binLevel mk ts) rest = rest := by
  refine binLevels_none (p := 9) hd h ?_
  intro zs hz t ht
  have : ∀ zs ∈ levels, ∀ y ∈ zs, (Tok.sym y).lvl < 9 := by decide
  match t with
  | .name _ | .num _ | .lit _ _ => cases ht
  | .sym y => exact this zs hz y (by simpa [Tok.isOne] using ht)

/-- What is shown of every spelling. -/
structure ReadAs (L : Readers) (p : Nat) (e : Expr) (ts : List Tok) : Prop where
  ne : ts ≠ []
  nested : Nested ts
  none : NoneOutside (fun t => t.lvl < p) ts
  run : ∀ n, ts.length < n → makeExpr L n ts = .ok e

theorem good_unary {L : Readers} {e : Expr} {t : Tok} {ts : List Tok} (hn : Nested (t :: ts)) (h9 : NoneOutside (fun t => t.lvl < 9) (t :: ts))
    (he : NotEnclosed (t :: ts)) (hr : ∀ n, (t :: ts).length ≤ n → makeUnary L (makeExpr L n) t ts = .ok e) : ReadAs L 9 e (t :: ts) := by
  refine ⟨by simp, hn, h9, fun n hl => ?_⟩
  cases n with
  | zero => omega
  | succ n =>
    have hd := nested_depth hn
    rw [makeExpr_step he, assignLevel_none hd (noneOutside_mono h9 fun t h => by omega), levels_none hd h9, hr n (by omega)]

theorem good_prefix {L : Readers} {e : Expr} {t : Tok} {ts : List Tok} (ht : Plain t) (hl : ¬ t.lvl < 9) (hn : Nested ts)
    (h9 : NoneOutside (fun t => t.lvl < 9) ts)
    (hr : ∀ n, ts.length < n → makeUnary L (makeExpr L n) t ts = .ok e) : ReadAs L 9 e (t :: ts) :=
  good_unary (.plain ht hn) ((noneOutside_cons ht).2 ⟨hl, h9⟩) (notEnclosed_plain ht ts) fun n h => hr n (by rw [List.length_cons] at h; omega)

theorem good_group {L : Readers} {e : Expr} {o c : Sym} (hp : Pair o c) {a : List Tok} (hn : Nested a)
    (hr : ∀ n, (Tok.sym o :: (a ++ [.sym c])).length < n → makeExpr L n (.sym o :: (a ++ [.sym c])) = .ok e) :
    ReadAs L 9 e (.sym o :: (a ++ [.sym c])) :=
  ⟨by simp, nested_group hp hn, noneOutside_group hp hn, hr⟩

theorem good_assign {L : Readers} {e : Expr} {x : Str} {y : Sym} {ts : List Tok} (hy : (Tok.sym y).lvl = 0) (hn : Nested ts)
    (hr : ∀ n, ts.length + 1 < n → ∀ rest, assignLevel (makeExpr L n) (.name x :: .sym y :: ts) rest = .ok e) :
    ReadAs L 0 e (.name x :: .sym y :: ts) := by
  refine ⟨by simp, .plain (plain_name x) (.plain (plain_lvl (by omega)) hn), fun l t r e hd hp => by simp, fun n hl => ?_⟩
  cases n with
  | zero => omega
  | succ n =>
    rw [makeExpr_step (notEnclosed_plain (plain_name x) _)]
    exact hr n (by simp at hl; omega) _

theorem assign_found {x : Str} {y : Sym} {ts : List Tok} (hy : (Tok.sym y).lvl = 0) :
    findFirst (Tok.isOne [.assignment, .appendAssign, .immAssign]) [] 0 (.name x :: .sym y :: ts) = .ok (some ([.name x], .sym y, ts)) := by
  refine findFirst_some.2 ⟨[.name x], rfl, rfl, by rw [depth_plain (plain_name x)]; simp, plain_lvl (by omega), (assign_lvl _).2 hy, ?_⟩
  rw [absent_cons]
  exact ⟨fun _ _ => rfl, fun l t r e => by cases l <;> cases e⟩

theorem good_binary {L : Readers} {p : Nat} {y : Sym} {f : Expr → Expr → Expr} {a b : Expr} {l r : List Tok} (h : Operator p y f)
    (ha : ReadAs L (p + 1) a l) (hb : ReadAs L p b r) : ReadAs L p (f a b) (l ++ .sym y :: r) := by
  obtain ⟨pre, ys, post, e, h1, h2, h3, h4, h5, h6⟩ := operator_level h
  have hy : Plain (.sym y) := plain_lvl (by omega)
  have hn : Nested (l ++ .sym y :: r) := nested_append ha.nested (.plain hy hb.nested)
  have hno : NoneOutside (fun t => t.lvl < p) (l ++ .sym y :: r) :=
    (noneOutside_append (nested_depth ha.nested)).2 ⟨noneOutside_mono ha.none fun t h => by omega, (noneOutside_cons hy).2 ⟨by omega, hb.none⟩⟩
  refine ⟨by simp, hn, hno, fun n hl => ?_⟩
  have hne := notEnclosed_append ha.nested ha.ne (r := .sym y :: r) (by simp)
  have hd := nested_depth hn
  have hf : findFirst (Tok.isOne ys) [] 0 (l ++ .sym y :: r) = .ok (some (l, .sym y, r)) := by
    refine findFirst_some.2 ⟨l, rfl, rfl, by have := nested_depth ha.nested; omega, hy, (h1 _).2 h4, fun l' t r' e' hd' hp' => ?_⟩
    have := ha.none l' t r' e' (by omega) hp'
    cases hz : Tok.isOne ys t
    · rfl
    · exact absurd ((h1 t).1 hz) (fun e => this (by omega))
  cases n with
  | zero => omega
  | succ n =>
    rw [List.length_append, List.length_cons] at hl
    cases hw : l ++ Tok.sym y :: r with
    | nil => simp at hw
    | cons t ts =>
      rw [hw] at hne hd hno hf
      rw [makeExpr_step hne, assignLevel_none hd (noneOutside_mono hno fun t h => by omega), e, List.foldr_append,
        binLevels_none hd hno h2, List.foldr_cons, binLevel, hf, Out.ok_bind]
      dsimp only
      rw [if_neg (by rintro (h | h); exacts [ha.ne h, hb.ne h]), ha.run n (by omega), Out.ok_bind, hb.run n (by omega), Out.ok_bind, h3]

/-! ### Lists -/

theorem find1_found {y : Sym} (hy : Plain (.sym y)) {l r : List Tok} (hl : Nested l) (h : NoneOutside (· = .sym y) l) :
    find1 y (l ++ .sym y :: r) = .ok (some (l, .sym y, r)) := by
  refine findFirst_some.2 ⟨l, rfl, rfl, by have := nested_depth hl; omega, hy, by simp, ?_⟩
  exact (absent_iff (P := (· = .sym y)) fun t _ => by simp).2 h

theorem find1_none {y : Sym} {l : List Tok} (hl : depth l = 0) (h : NoneOutside (· = .sym y) l) : find1 y l = .ok none :=
  findFirst_none.2 ⟨by omega, (absent_iff (P := (· = .sym y)) fun t _ => by simp).2 h⟩

theorem plain_comma : Plain (.sym .comma) := plain_sym rfl rfl
theorem plain_colon : Plain (.sym .colon) := plain_sym rfl rfl
theorem plain_semi : Plain (.sym .semicolon) := plain_sym rfl rfl

theorem nested_commas {l : List (List Tok)} (h : ∀ ts ∈ l, Nested ts) : Nested (commas l) := by
  induction l with
  | nil => exact .nil
  | cons ts l ih =>
    cases l with
    | nil => exact h ts (by simp)
    | cons u l => exact nested_append (h ts (by simp)) (.plain plain_comma (ih fun t ht => h t (by simp [ht])))

theorem commas_cons2 (a b : List Tok) (l : List (List Tok)) : commas (a :: b :: l) = a ++ .sym .comma :: commas (b :: l) := rfl

theorem length_commas_le {a : List Tok} {l : List (List Tok)} (h : a ∈ l) : a.length ≤ (commas l).length := by
  induction l with
  | nil => cases h
  | cons b l ih =>
    cases l with
    | nil => rw [List.mem_singleton] at h; rw [h]; exact Nat.le_refl _
    | cons c l =>
      rw [commas_cons2, List.length_append, List.length_cons]
      rcases List.mem_cons.1 h with rfl | h
      · omega
      · have := ih h; omega

theorem parseList_of {mk : List Tok → Out Expr} {items : List (Expr × List Tok)} (hne : items ≠ [])
    (hg : ∀ i ∈ items, i.2 ≠ [] ∧ Nested i.2 ∧ mk i.2 = .ok i.1)
    (hc : ∀ i ∈ items, NoneOutside (· = .sym .comma) i.2) (trail : Bool) :
    ∀ k, (commas (items.map (·.2)) ++ (if trail then [Tok.sym .comma] else [])).length < k →
    parseList mk k (commas (items.map (·.2)) ++ (if trail then [.sym .comma] else [])) = .ok (items.map (·.1)) := by
  induction items with
  | nil => exact absurd rfl hne
  | cons i items ih =>
    intro k hk
    have gi := hg i (by simp)
    have ci := hc i (by simp)
    cases k with
    | zero => omega
    | succ k =>
      cases items with
      | nil =>
        rw [parseList]
        simp only [List.map_cons, List.map_nil, commas]
        cases trail with
        | true =>
          simp only [if_true]
          rw [find1_found plain_comma gi.2.1 ci, Out.ok_bind]
          dsimp only
          rw [gi.2.2, Out.ok_bind]
          cases k with
          | zero => simp [commas] at hk
          | succ k => rw [parseList, find1_none (by simp) (noneOutside_nil _)]; rfl
        | false =>
          simp only [Bool.false_eq_true, if_false, List.append_nil]
          rw [find1_none (nested_depth gi.2.1) ci, Out.ok_bind]
          dsimp only
          rw [if_pos gi.1, gi.2.2]; rfl
      | cons j items =>
        rw [parseList]
        simp only [List.map_cons, commas_cons2, List.append_assoc, List.cons_append] at hk ⊢
        rw [find1_found plain_comma gi.2.1 ci, Out.ok_bind]
        dsimp only
        rw [gi.2.2, Out.ok_bind]
        have := ih (by simp) (fun i hi => hg i (by simp [hi])) (fun i hi => hc i (by simp [hi])) k
          (by simp only [List.map_cons]; simp only [List.length_append, List.length_cons] at hk ⊢; omega)
        simp only [List.map_cons] at this
        rw [this]; rfl

theorem parseList_items {L : Readers} {n : Nat} {items : List (Expr × List Tok)} (hne : items ≠ []) (hg : ∀ i ∈ items, ReadAs L 0 i.1 i.2)
    (hc : ∀ i ∈ items, NoneOutside (· = .sym .comma) i.2) (hn : ∀ i ∈ items, i.2.length < n) (trail : Bool) :
    ∀ k, (commas (items.map (·.2)) ++ (if trail then [Tok.sym .comma] else [])).length < k →
    parseList (makeExpr L n) k (commas (items.map (·.2)) ++ (if trail then [.sym .comma] else [])) = .ok (items.map (·.1)) :=
  parseList_of hne (fun i hi => ⟨(hg i hi).ne, (hg i hi).nested, (hg i hi).run n (hn i hi)⟩) hc trail

theorem argsLoop_items {L : Readers} {n : Nat} {items : List (Expr × List Tok)} (hne : items ≠ []) (hg : ∀ i ∈ items, ReadAs L 0 i.1 i.2)
    (hc : ∀ i ∈ items, NoneOutside (· = .sym .comma) i.2) (hn : ∀ i ∈ items, i.2.length < n) :
    ∀ k, (commas (items.map (·.2))).length < k →
    argsLoop (makeExpr L n) k (commas (items.map (·.2))) = .ok (items.map (·.1)) := by
  induction items with
  | nil => exact absurd rfl hne
  | cons i items ih =>
    intro k hk
    have gi := hg i (by simp)
    have ci := hc i (by simp)
    have ni := hn i (by simp)
    cases k with
    | zero => omega
    | succ k =>
      cases items with
      | nil =>
        rw [argsLoop]
        simp only [List.map_cons, List.map_nil, commas]
        rw [find1_none (nested_depth gi.nested) ci, Out.ok_bind]
        dsimp only
        rw [if_neg gi.ne, gi.run n ni]; rfl
      | cons j items =>
        rw [argsLoop]
        simp only [List.map_cons, commas_cons2] at hk ⊢
        rw [find1_found plain_comma gi.nested ci, Out.ok_bind]
        dsimp only
        rw [if_neg gi.ne, gi.run n ni, Out.ok_bind]
        have := ih (by simp) (fun i hi => hg i (by simp [hi])) (fun i hi => hc i (by simp [hi])) (fun i hi => hn i (by simp [hi])) k
          (by simp only [List.map_cons]; simp only [List.length_append, List.length_cons] at hk ⊢; omega)
        simp only [List.map_cons] at this
        rw [this]; rfl

/-! ### Braces -/

theorem dropSemis_semi (ts : List Tok) : dropSemis (ts ++ [.sym .semicolon]) = dropSemis ts := by
  unfold dropSemis
  rw [List.reverse_append]
  simp

theorem dropSemis_semis (ts : List Tok) (k : Nat) : dropSemis (ts ++ List.replicate k (.sym .semicolon)) = dropSemis ts := by
  induction k with
  | zero => simp
  | succ k ih => rw [List.replicate_succ', ← List.append_assoc, dropSemis_semi, ih]

theorem dropSemis_id {l ts : List Tok} (hne : ts ≠ []) (hn : Nested ts) (h : NoneOutside (· = .sym .semicolon) ts) : dropSemis (l ++ ts) = l ++ ts := by
  obtain ⟨a, t, rfl⟩ : ∃ a t, ts = a ++ [t] := ⟨ts.dropLast, ts.getLast hne, (List.dropLast_append_getLast hne).symm⟩
  have ht : t ≠ .sym .semicolon := by
    rintro rfl
    refine h a _ [] rfl ?_ plain_semi rfl
    have := nested_depth hn
    rw [depth_append, depth_plain plain_semi] at this
    simpa using this
  unfold dropSemis
  rw [← List.append_assoc, List.reverse_append]
  simp [ht]

/-- The chain of alternatives before `c`. -/
def chainOnto (c : Option Expr) : List Alt → Option Expr
  | [] => c
  | a :: as => some (.ifMatch a.test a.body (chainOnto c as))

theorem chainOnto_append (c : Option Expr) (as bs : List Alt) : chainOnto c (as ++ bs) = chainOnto (chainOnto c bs) as := by
  induction as with
  | nil => rfl
  | cons a as ih => rw [List.cons_append, chainOnto, chainOnto, ih]

theorem chain_eq (as : List Alt) : chain as = chainOnto none as := by
  induction as with
  | nil => rfl
  | cons a as ih => rw [chain, chainOnto, ih]

/-- An alternative that is read as it should be. -/
structure GoodAlt (L : Readers) (a : Alt) : Prop where
  test : ∀ ts, a.tests = some ts → ReadAs L 0 a.test ts
  colon : ∀ ts, a.tests = some ts → NoneOutside (· = .sym .colon) ts
  star : a.tests = none → L.regex ['*'] = .ok a.test ∧ NoneOutside (· = .sym .colon) a.bodys
  body : a.bodys ≠ [] → ReadAs L 0 a.body a.bodys
  nop : a.bodys = [] → a.body = .nop
  semi : NoneOutside (· = .sym .semicolon) a.toks

theorem GoodAlt.nested_bodys {L : Readers} {a : Alt} (h : GoodAlt L a) : Nested a.bodys := by
  by_cases e : a.bodys = []
  · rw [e]; exact .nil
  · exact (h.body e).nested

theorem GoodAlt.nested {L : Readers} {a : Alt} (h : GoodAlt L a) : Nested a.toks := by
  unfold Alt.toks
  cases e : a.tests with
  | none => exact h.nested_bodys
  | some ts => exact nested_append (h.test ts e).nested (.plain plain_colon h.nested_bodys)

theorem GoodAlt.run {L : Readers} {a : Alt} (h : GoodAlt L a) {n : Nat} (hn : a.toks.length < n) :
    alternative L (makeExpr L n) a.toks = .ok (a.test, a.body) := by
  have hb : a.bodys.length < n → (if a.bodys ≠ [] then makeExpr L n a.bodys else .ok .nop) = .ok a.body := by
    intro hl
    by_cases e : a.bodys = []
    · rw [if_neg (by simpa using e), h.nop e]
    · rw [if_pos e]; exact (h.body e).run n hl
  unfold alternative Alt.toks
  unfold Alt.toks at hn
  cases e : a.tests with
  | none =>
    rw [e] at hn
    dsimp only at hn ⊢
    obtain ⟨h1, h2⟩ := h.star e
    rw [find1_none (nested_depth h.nested_bodys) h2, Out.ok_bind]
    dsimp only
    rw [h1, Out.ok_bind, hb hn, Out.ok_bind]
  | some ts =>
    rw [e] at hn
    dsimp only at hn ⊢
    rw [List.length_append, List.length_cons] at hn
    have ht := h.test ts e
    rw [find1_found plain_colon ht.nested (h.colon ts e), Out.ok_bind]
    dsimp only
    rw [ht.run n (by omega), Out.ok_bind, hb (by omega), Out.ok_bind]

theorem altToks_append (as bs : List (Alt × Nat)) : altToks (as ++ bs) = altToks as ++ altToks bs := by
  induction as with
  | nil => rfl
  | cons a as ih => rw [List.cons_append, altToks, altToks, ih]; simp

theorem nested_semis (k : Nat) : Nested (List.replicate k (.sym .semicolon)) := by
  induction k with
  | zero => exact .nil
  | succ k ih => exact .plain plain_semi ih

theorem nested_altToks {L : Readers} {as : List (Alt × Nat)} (h : ∀ a ∈ as, GoodAlt L a.1) : Nested (altToks as) := by
  induction as with
  | nil => exact .nil
  | cons a as ih =>
    exact nested_append (nested_append (h a (by simp)).nested (nested_semis a.2)) (ih fun b hb => h b (by simp [hb]))

theorem length_altToks_le {as : List (Alt × Nat)} {a : Alt × Nat} (h : a ∈ as) : a.1.toks.length ≤ (altToks as).length := by
  induction as with
  | nil => cases h
  | cons b as ih =>
    obtain ⟨b, k⟩ := b
    rw [altToks, List.length_append, List.length_append]
    rcases List.mem_cons.1 h with rfl | h
    · show b.toks.length ≤ _
      omega
    · have := ih h; omega

theorem separated_last {as : List (Alt × Nat)} {b a : Alt × Nat} (h : Separated (as ++ [b, a])) : 1 ≤ b.2 ∧ Separated (as ++ [b]) := by
  induction as with
  | nil => exact ⟨h.1, trivial⟩
  | cons x as ih =>
    cases as with
    | nil => exact ⟨(ih h.2).1, h.1, trivial⟩
    | cons y as =>
      have := ih h.2
      exact ⟨this.1, h.1, this.2⟩

theorem length_dropSemis (ts : List Tok) : (dropSemis ts).length ≤ ts.length := by
  unfold dropSemis
  rw [List.length_reverse]
  have := (List.dropWhile_sublist (fun t : Tok => t == .sym .semicolon) (l := ts.reverse)).length_le
  simpa using this

theorem bracesLoop_alts {L : Readers} {n : Nat} (m : Nat) : ∀ {as : List (Alt × Nat)}, as.length = m + 1 → (∀ a ∈ as, GoodAlt L a.1) →
    (∀ a ∈ as, a.1.toks.length < n) → (∀ a ∈ as.tail, a.1.toks ≠ []) → Separated as → ∀ c k, m < k →
    bracesLoop L (makeExpr L n) k c (dropSemis (altToks as)) = .ok (chainOnto c (as.map (·.1))) := by
  induction m with
  | zero =>
    intro as hm hg hn ht hs c k hk
    match as, hm with
    | [(a, j)], _ =>
      have g := hg _ (List.mem_singleton.2 rfl)
      have e : dropSemis (altToks [(a, j)]) = a.toks := by
        rw [altToks, altToks, List.append_nil, dropSemis_semis]
        by_cases e : a.toks = []
        · rw [e]; rfl
        · exact dropSemis_id (l := []) e g.nested g.semi
      cases k with
      | zero => omega
      | succ k =>
        rw [bracesLoop, e, findLast_none ((absent_iff (P := (· = .sym .semicolon)) fun t _ => by simp).2 g.semi)
          (by have := nested_depth g.nested; omega), Out.ok_bind]
        dsimp only
        rw [g.run (hn _ (List.mem_singleton.2 rfl)), Out.ok_bind]
        rfl
  | succ m ih =>
    intro as hm hg hn ht hs c k hk
    obtain ⟨as', b, a, rfl⟩ : ∃ as' b a, as = as' ++ [b, a] := by
      have h1 : as ≠ [] := by rintro rfl; simp at hm
      have h2 : as.dropLast ≠ [] := by
        intro e
        have := congrArg List.length e
        rw [List.length_dropLast] at this
        simp at this; omega
      refine ⟨as.dropLast.dropLast, as.dropLast.getLast h2, as.getLast h1, ?_⟩
      have e1 := List.dropLast_append_getLast h1
      have e2 := List.dropLast_append_getLast h2
      conv_lhs => rw [← e1, ← e2]
      simp
    obtain ⟨hb, hs'⟩ := separated_last hs
    have g := hg a (by simp)
    have ha0 : a.1.toks ≠ [] := by
      refine ht a ?_
      cases as' <;> simp
    obtain ⟨j, hj⟩ : ∃ j, b.2 = j + 1 := ⟨b.2 - 1, by omega⟩
    have e1 : altToks (as' ++ [b]) = (altToks as' ++ (b.1.toks ++ List.replicate j (.sym .semicolon))) ++ [.sym .semicolon] := by
      rw [altToks_append, altToks, altToks, hj, List.replicate_succ']
      simp
    obtain ⟨z, hz⟩ : ∃ z, z = altToks as' ++ (b.1.toks ++ List.replicate j (.sym .semicolon)) := ⟨_, rfl⟩
    rw [← hz] at e1
    have e2 : dropSemis (altToks (as' ++ [b, a])) = z ++ .sym .semicolon :: a.1.toks := by
      have : as' ++ [b, a] = (as' ++ [b]) ++ [a] := by simp
      rw [this, altToks_append, e1, altToks, altToks, List.append_nil, ← List.append_assoc, dropSemis_semis, dropSemis_id ha0 g.nested g.semi]
      simp
    have hzn : depth z = 0 := by
      have h1 := nested_depth (nested_altToks (L := L) (as := as' ++ [b]) fun x hx => hg x (by
        rcases List.mem_append.1 hx with h | h
        · simp [h]
        · simp at h; simp [h]))
      rw [e1, depth_append, depth_plain plain_semi] at h1
      simpa using h1
    cases k with
    | zero => omega
    | succ k =>
      rw [bracesLoop, e2, findLast_append plain_semi (by simp) (by omega)
        ((absent_iff (P := (· = .sym .semicolon)) fun t _ => by simp).2 g.semi) (nested_depth g.nested), Out.ok_bind]
      dsimp only
      rw [g.run (hn a (by simp)), Out.ok_bind, List.nil_append]
      dsimp only
      have := ih (as := as' ++ [b]) (by simp at hm ⊢; omega)
        (fun x hx => hg x (by
          rcases List.mem_append.1 hx with h | h
          · simp [h]
          · simp at h; simp [h]))
        (fun x hx => hn x (by
          rcases List.mem_append.1 hx with h | h
          · simp [h]
          · simp at h; simp [h]))
        (fun x hx => ht x (by
          cases as' with
          | nil => simp at hx
          | cons y as' => simp at hx ⊢; rcases hx with h | h <;> simp [h]))
        hs' (some (.ifMatch a.1.test a.1.body c)) k (by omega)
      rw [e1, dropSemis_semi] at this
      rw [this]
      have : (as' ++ [b, a]).map (·.1) = (as' ++ [b]).map (·.1) ++ [a.1] := by simp
      rw [this, chainOnto_append]
      rfl

end Ringing.Siril
