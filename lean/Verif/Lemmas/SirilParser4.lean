import Verif.Lemmas.SirilParser3
/-
What `make_expr` of apps/gsiril/parser.cpp accepts is what the grammar spells.
-/
namespace Ringing.Siril
open Grammar Spec

theorem nested_split {ts : List Tok} (h : Nested ts) : ∀ {l r}, ts = l ++ r → depth l = 0 → Nested l ∧ Nested r := by
  induction h with
  | nil =>
    intro l r e _
    obtain ⟨rfl, rfl⟩ := List.append_eq_nil_iff.1 e.symm
    exact ⟨.nil, .nil⟩
  | @plain t ts hp hn ih =>
    intro l r e hd
    cases l with
    | nil => rw [List.nil_append] at e; rw [← e]; exact ⟨.nil, .plain hp hn⟩
    | cons x l =>
      injection e with e1 e2
      subst e1
      rw [depth_plain hp] at hd
      obtain ⟨a, b⟩ := ih e2 hd
      exact ⟨.plain hp a, b⟩
  | @group o c a ts hp h1 h2 ih1 ih2 =>
    intro l r e hd
    cases l with
    | nil => rw [List.nil_append] at e; rw [← e]; exact ⟨.nil, .group hp h1 h2⟩
    | cons x l =>
      injection e with e1 e2
      subst e1
      rw [depth_cons, Tok.d_open hp] at hd
      rcases List.append_eq_append_iff.1 e2 with ⟨m, rfl, e3⟩ | ⟨m, e3, e4⟩
      · cases m with
        | nil => rw [List.append_nil] at hd; have := nested_depth h1; omega
        | cons u m =>
          injection e3 with e3 e4
          subst e3
          rw [depth_append, depth_cons, Tok.d_close hp, nested_depth h1] at hd
          obtain ⟨x, y⟩ := ih2 e4 (by omega)
          exact ⟨.group hp h1 x, y⟩
      · have := nested_prefix h1 e3; omega

theorem spells_down {L : Readers} {q : Nat} {e : Expr} {ts : List Tok} (hq : q ≤ 9) (h : Spells L q e ts) {p : Nat} (hp : p ≤ q) : Spells L p e ts := by
  induction q with
  | zero => have : p = 0 := by omega
            rw [this]; exact h
  | succ q ih =>
    by_cases e : p = q + 1
    · rw [e]; exact h
    · exact ih (by omega) (.up (by omega) h) (by omega)

/-- The operator with a level. -/
theorem operator_of_lvl {t : Tok} {p : Nat} (h : t.lvl = p) (h1 : 1 ≤ p) (h8 : p ≤ 8) :
    ∃ y f, t = .sym y ∧ Operator p y f ∧ ∀ a b, binNode y a b = some (f a b) := by
  have : AnyOperator t := (anyOperator_iff t).2 (by omega)
  rcases this with rfl | rfl | rfl | ⟨q, y, f, ho, rfl⟩
  · have : (Tok.sym .assignment).lvl = 0 := rfl
    omega
  · have : (Tok.sym .appendAssign).lvl = 0 := rfl
    omega
  · have : (Tok.sym .immAssign).lvl = 0 := rfl
    omega
  · obtain ⟨_, _, _, _, _, _, hb, hl, _⟩ := operator_level ho
    have : q = p := by omega
    subst this
    exact ⟨y, f, rfl, ho, hb⟩

theorem levels_get (i : Nat) (hi : i < levels.length) (t : Tok) : Tok.isOne levels[i] t = true ↔ t.lvl = i + 1 := by
  match t with
  | .name _ | .num _ | .lit _ _ =>
    simp only [Tok.isOne, Tok.lvl]
    have : levels.length = 8 := rfl
    constructor
    · intro h; cases h
    · intro h; omega
  | .sym y => revert i; cases y <;> decide

/-- The tokens whose reading is described: the brackets match, or nothing in them lets tokens be ignored; and numbers are small. -/
structure Ctx (ts : List Tok) : Prop where
  nested : Nested ts ∨ ∀ t ∈ ts, ¬ Careless t
  small : SmallNumbers ts

theorem Ctx.sub {ts l : List Tok} (h : Ctx ts) (hs : ∀ t ∈ l, t ∈ ts) (hn : Nested ts → Nested l) : Ctx l :=
  ⟨h.nested.imp hn fun h t ht => h t (hs t ht), fun s hm => h.small s (hs _ hm)⟩

theorem Ctx.left {l r : List Tok} (h : Ctx (l ++ r)) (hd : depth l = 0) : Ctx l :=
  h.sub (fun t ht => by simp [ht]) fun hn => (nested_split hn rfl hd).1

theorem Ctx.right {l r : List Tok} (h : Ctx (l ++ r)) (hd : depth l = 0) : Ctx r :=
  h.sub (fun t ht => by simp [ht]) fun hn => (nested_split hn rfl hd).2

theorem Ctx.tail {t : Tok} {r : List Tok} (h : Ctx (t :: r)) (ht : Plain t) : Ctx r :=
  Ctx.right (l := [t]) h (by rw [depth_plain ht]; simp)

/-- What is known of the calls. -/
def Reads (L : Readers) (mk : List Tok → Out Expr) : Prop :=
  ∀ ts e, mk ts = .ok e → Ctx ts → ∀ p, p ≤ 9 → NoneOutside (fun t => t.lvl < p) ts → Spells L p e ts

theorem Reads.zero {L : Readers} {mk : List Tok → Out Expr} (h : Reads L mk) {ts : List Tok} {e : Expr} (hm : mk ts = .ok e) (hc : Ctx ts) :
    Spells L 0 e ts := h ts e hm hc 0 (by omega) fun l t r _ _ _ => by simp

theorem bind_ok {α β : Type} {x : Out α} {f : α → Out β} {b : β} (h : (x >>= f) = .ok b) : ∃ a, x = .ok a ∧ f a = .ok b := by
  cases x with
  | ok a => exact ⟨a, rfl, h⟩
  | throw e => cases h
  | ub => cases h
  | timeout => cases h

theorem find1_inv {y : Sym} {ts : List Tok} {o : Option (List Tok × Tok × List Tok)} (h : find1 y ts = .ok o) :
    (o = none ∧ depth ts = 0 ∧ NoneOutside (· = .sym y) ts) ∨
      ∃ l r, o = some (l, .sym y, r) ∧ ts = l ++ .sym y :: r ∧ depth l = 0 ∧ Plain (.sym y) ∧ NoneOutside (· = .sym y) l := by
  unfold find1 at h
  cases o with
  | none =>
    obtain ⟨a, b⟩ := findFirst_none.1 h
    exact .inl ⟨rfl, by omega, (absent_iff (P := (· = .sym y)) fun t _ => by simp).1 b⟩
  | some x =>
    obtain ⟨l', t, r⟩ := x
    obtain ⟨l, h1, h2, h3, h4, h5, h6⟩ := findFirst_some.1 h
    have : t = .sym y := by simpa using h5
    subst this
    rw [List.nil_append] at h1
    subst h1
    exact .inr ⟨l', r, rfl, h2, by omega, h4, (absent_iff (P := (· = .sym y)) fun t _ => by simp).1 h6⟩

theorem parseList_inv {L : Readers} {mk : List Tok → Out Expr} (hm : Reads L mk) {k : Nat} {ts : List Tok} {es : List Expr}
    (h : parseList mk k ts = .ok es) (hc : Ctx ts) :
    ∃ (items : List (Expr × List Tok)) (trail : Bool), es = items.map (·.1) ∧ (∀ i ∈ items, Spells L 0 i.1 i.2) ∧
      (∀ i ∈ items, NoneOutside (· = .sym .comma) i.2) ∧ (trail = true → items ≠ []) ∧
      ts = commas (items.map (·.2)) ++ (if trail then [.sym .comma] else []) := by
  induction k generalizing ts es with
  | zero => cases h
  | succ k ih =>
    rw [parseList] at h
    obtain ⟨o, ho, h⟩ := bind_ok h
    rcases find1_inv ho with ⟨rfl, h2, h3⟩ | ⟨l, r, rfl, rfl, h2, h3, h4⟩
    · dsimp only at h
      by_cases h0 : ts = []
      · subst h0
        rw [if_neg (by simp)] at h
        injection h with h
        subst h
        exact ⟨[], false, rfl, by simp, by simp, by simp, rfl⟩
      · rw [if_pos h0] at h
        obtain ⟨e, he, h⟩ := bind_ok h
        injection h with h
        subst h
        exact ⟨[(e, ts)], false, rfl, by simpa using hm.zero he hc, by simpa using h3, by simp, by simp [commas]⟩
    · dsimp only at h
      obtain ⟨e, he, h⟩ := bind_ok h
      obtain ⟨es', hes, h⟩ := bind_ok h
      injection h with h
      subst h
      have hl := hm.zero he (hc.left h2)
      obtain ⟨items, trail, rfl, i1, i2, i3, i4⟩ := ih hes (Ctx.tail (hc.right h2) h3)
      cases items with
      | nil =>
        have : trail = false := by
          cases trail
          · rfl
          · exact absurd rfl (i3 rfl)
        subst this
        refine ⟨[(e, l)], true, rfl, by simpa using hl, by simpa using h4, by simp, ?_⟩
        rw [i4]; simp [commas]
      | cons i items =>
        refine ⟨(e, l) :: i :: items, trail, rfl, ?_, ?_, by simp, ?_⟩
        · intro j hj
          rcases List.mem_cons.1 hj with rfl | hj
          · exact hl
          · exact i1 j hj
        · intro j hj
          rcases List.mem_cons.1 hj with rfl | hj
          · exact h4
          · exact i2 j hj
        · rw [i4]; simp [commas_cons2]

theorem argsLoop_inv {L : Readers} {mk : List Tok → Out Expr} (hm : Reads L mk) {k : Nat} {ts : List Tok} {es : List Expr}
    (h : argsLoop mk k ts = .ok es) (hc : Ctx ts) :
    ∃ (items : List (Expr × List Tok)), es = items.map (·.1) ∧ (∀ i ∈ items, Spells L 0 i.1 i.2) ∧
      (∀ i ∈ items, NoneOutside (· = .sym .comma) i.2) ∧ items ≠ [] ∧ ts = commas (items.map (·.2)) := by
  induction k generalizing ts es with
  | zero => cases h
  | succ k ih =>
    rw [argsLoop] at h
    obtain ⟨o, ho, h⟩ := bind_ok h
    rcases find1_inv ho with ⟨rfl, h2, h3⟩ | ⟨l, r, rfl, rfl, h2, h3, h4⟩
    · dsimp only at h
      by_cases h0 : ts = []
      · rw [if_pos h0] at h; cases h
      · rw [if_neg h0] at h
        obtain ⟨e, he, h⟩ := bind_ok h
        injection h with h
        subst h
        exact ⟨[(e, ts)], rfl, by simpa using hm.zero he hc, by simpa using h3, by simp, rfl⟩
    · dsimp only at h
      by_cases h0 : l = []
      · rw [if_pos h0] at h; cases h
      · rw [if_neg h0] at h
        obtain ⟨e, he, h⟩ := bind_ok h
        obtain ⟨es', hes, h⟩ := bind_ok h
        injection h with h
        subst h
        have hl := hm.zero he (hc.left h2)
        obtain ⟨items, rfl, i1, i2, i3, i4⟩ := ih hes (Ctx.tail (hc.right h2) h3)
        cases items with
        | nil => exact absurd rfl i3
        | cons i items =>
          refine ⟨(e, l) :: i :: items, rfl, ?_, ?_, by simp, ?_⟩
          · intro j hj
            rcases List.mem_cons.1 hj with rfl | hj
            · exact hl
            · exact i1 j hj
          · intro j hj
            rcases List.mem_cons.1 hj with rfl | hj
            · exact h4
            · exact i2 j hj
          · rw [i4]; simp [commas_cons2]

/-! ### Braces -/

/-- What the grammar asks of an alternative. -/
structure SpAlt (L : Readers) (a : Alt) : Prop where
  test : ∀ ts, a.tests = some ts → Spells L 0 a.test ts
  colon : ∀ ts, a.tests = some ts → NoneOutside (· = .sym .colon) ts
  star : a.tests = none → L.regex ['*'] = .ok a.test ∧ NoneOutside (· = .sym .colon) a.bodys
  body : a.bodys ≠ [] → Spells L 0 a.body a.bodys
  nop : a.bodys = [] → a.body = .nop
  semi : NoneOutside (· = .sym .semicolon) a.toks

theorem body_inv {L : Readers} {mk : List Tok → Out Expr} (hm : Reads L mk) {ts : List Tok} {e : Expr}
    (h : (if ts ≠ [] then mk ts else .ok .nop) = .ok e) (hc : Ctx ts) : (ts ≠ [] → Spells L 0 e ts) ∧ (ts = [] → e = .nop) := by
  by_cases h0 : ts = []
  · rw [if_neg (by simpa using h0)] at h
    injection h with h
    exact ⟨fun hn => absurd h0 hn, fun _ => h.symm⟩
  · rw [if_pos h0] at h
    exact ⟨fun _ => hm.zero h hc, fun hn => absurd hn h0⟩

theorem alternative_inv {L : Readers} {mk : List Tok → Out Expr} (hm : Reads L mk) {ts : List Tok} {x : Expr × Expr}
    (h : alternative L mk ts = .ok x) (hc : Ctx ts) (hs : NoneOutside (· = .sym .semicolon) ts) :
    ∃ a : Alt, a.toks = ts ∧ a.test = x.1 ∧ a.body = x.2 ∧ SpAlt L a := by
  unfold alternative at h
  obtain ⟨o, ho, h⟩ := bind_ok h
  rcases find1_inv ho with ⟨rfl, h2, h3⟩ | ⟨l, r, rfl, rfl, h2, h3, h4⟩
  · dsimp only at h
    obtain ⟨t, ht, h⟩ := bind_ok h
    obtain ⟨e, he, h⟩ := bind_ok h
    injection h with h
    subst h
    obtain ⟨b1, b2⟩ := body_inv hm he hc
    exact ⟨⟨t, none, e, ts⟩, rfl, rfl, rfl, ⟨fun _ hh => (by cases hh), fun _ hh => (by cases hh), fun _ => ⟨ht, h3⟩, b1, b2, hs⟩⟩
  · dsimp only at h
    obtain ⟨t, ht, h⟩ := bind_ok h
    obtain ⟨e, he, h⟩ := bind_ok h
    injection h with h
    subst h
    obtain ⟨b1, b2⟩ := body_inv hm he (Ctx.tail (hc.right h2) h3)
    refine ⟨⟨t, some l, e, r⟩, rfl, rfl, rfl, ⟨fun _ hh => ?_, fun _ hh => ?_, fun hh => (by cases hh), b1, b2, hs⟩⟩
    · injection hh with hh; subst hh; exact hm.zero ht (hc.left h2)
    · injection hh with hh; subst hh; exact h4

theorem dropSemis_split (ts : List Tok) : ∃ j, ts = dropSemis ts ++ List.replicate j (.sym .semicolon) := by
  refine ⟨(ts.reverse.takeWhile (fun t => t == .sym .semicolon)).length, ?_⟩
  have h1 : ts.reverse.takeWhile (fun t => t == Tok.sym .semicolon) =
      List.replicate (ts.reverse.takeWhile (fun t => t == .sym .semicolon)).length (Tok.sym .semicolon) := by
    refine List.eq_replicate_iff.2 ⟨rfl, fun b hb => ?_⟩
    have := (List.all_eq_true.1 List.all_takeWhile) b hb
    simpa using this
  have h2 := List.takeWhile_append_dropWhile (p := fun t => t == Tok.sym .semicolon) (l := ts.reverse)
  have h3 := congrArg List.reverse h2
  rw [List.reverse_append, List.reverse_reverse] at h3
  unfold dropSemis
  conv_lhs => rw [← h3]
  congr 1
  conv_lhs => rw [h1]
  rw [List.reverse_replicate]

theorem dropSemis_last (ts l : List Tok) : dropSemis ts ≠ l ++ [.sym .semicolon] := by
  intro e
  unfold dropSemis at e
  have := congrArg List.reverse e
  rw [List.reverse_reverse, List.reverse_append] at this
  have h := List.head?_dropWhile_not (fun t => t == Tok.sym .semicolon) ts.reverse
  rw [this] at h
  simp at h

theorem depth_semis (j : Nat) : depth (List.replicate j (.sym .semicolon)) = 0 := nested_depth (nested_semis j)

theorem bracesLoop_inv {L : Readers} {mk : List Tok → Out Expr} (hm : Reads L mk) {k : Nat} {c : Option Expr} {ts : List Tok} {o : Option Expr}
    (h : bracesLoop L mk k c ts = .ok o) (hc : Ctx ts) (hl : ∀ l, ts ≠ l ++ [.sym .semicolon]) :
    ∃ (as : List (Alt × Nat)) (a : Alt), altToks as ++ a.toks = ts ∧ o = chainOnto c (as.map (·.1) ++ [a]) ∧
      (∀ b ∈ as, SpAlt L b.1 ∧ 1 ≤ b.2) ∧ SpAlt L a ∧ (as ≠ [] → a.toks ≠ []) ∧ (∀ b ∈ as.tail, b.1.toks ≠ []) := by
  induction k generalizing ts c o with
  | zero => cases h
  | succ k ih =>
    rw [bracesLoop] at h
    obtain ⟨f, hf, h⟩ := bind_ok h
    obtain ⟨hd, ⟨rfl, h2⟩ | ⟨l, t, r, rfl, rfl, ht, hp, h4, h5⟩⟩ := findLast_inv hf
    · dsimp only at h
      obtain ⟨x, hx, h⟩ := bind_ok h
      injection h with h
      subst h
      obtain ⟨a, a1, a2, a3, a4⟩ := alternative_inv hm hx hc ((absent_iff (P := (· = .sym .semicolon)) fun t _ => by simp).1 h2)
      exact ⟨[], a, a1, by rw [← a2, ← a3]; rfl, by simp, a4, by simp, by simp⟩
    · have hts : t = .sym .semicolon := by simpa using hp
      subst hts
      dsimp only at h
      rw [List.nil_append] at h
      obtain ⟨x, hx, h⟩ := bind_ok h
      have hdl : depth l = 0 := by omega
      obtain ⟨a, a1, a2, a3, a4⟩ := alternative_inv hm hx (Ctx.tail (hc.right hdl) ht)
        ((absent_iff (P := (· = .sym .semicolon)) fun t _ => by simp).1 h5)
      obtain ⟨j, hj⟩ := dropSemis_split l
      have hcl : Ctx (dropSemis l) := by
        have := hc.left hdl
        rw [hj] at this
        refine this.left ?_
        rw [hj, depth_append, depth_semis] at hdl
        omega
      obtain ⟨as, b, b1, b2, b3, b4, b5, b6⟩ := ih h hcl (dropSemis_last l)
      have hr : r ≠ [] := by
        rintro rfl
        exact hl l rfl
      refine ⟨as ++ [(b, j + 1)], a, ?_, ?_, ?_, a4, fun _ => by rw [a1]; exact hr, ?_⟩
      · rw [altToks_append, altToks, altToks, a1, List.append_nil]
        conv_rhs => rw [hj, ← b1]
        rw [List.replicate_succ']
        simp
      · rw [b2, ← a2, ← a3]
        have : List.map (fun x => x.1) (as ++ [(b, j + 1)]) ++ [a] = (as.map (·.1) ++ [b]) ++ [a] := by simp
        rw [this, chainOnto_append _ (_ ++ [b]) [a]]
        rfl
      · intro d hd
        rcases List.mem_append.1 hd with hd | hd
        · exact b3 d hd
        · rw [List.mem_singleton] at hd; subst hd; exact ⟨b4, by simp⟩
      · intro d hd
        cases as with
        | nil => simp at hd
        | cons a' as =>
          simp only [List.cons_append, List.tail_cons, List.mem_append, List.mem_singleton] at hd
          rcases hd with hd | rfl
          · exact b6 d hd
          · exact b5 (by simp)

theorem separated_append {as : List (Alt × Nat)} (h : ∀ b ∈ as, 1 ≤ b.2) (a : Alt × Nat) : Separated (as ++ [a]) := by
  induction as with
  | nil => trivial
  | cons b as ih =>
    have h1 := ih fun d hd => h d (by simp [hd])
    have h2 := h b (by simp)
    cases as with
    | nil => exact ⟨h2, h1⟩
    | cons d as => exact ⟨h2, h1⟩

theorem braces_spells {L : Readers} {mk : List Tok → Out Expr} (hm : Reads L mk) {k : Nat} {a : List Tok} {e : Expr}
    (h : bracesLoop L mk k none (dropSemis a) = .ok (some e)) (hc : Ctx a) : Spells L 9 e (.sym .openBrace :: (a ++ [.sym .closeBrace])) := by
  obtain ⟨j, hj⟩ := dropSemis_split a
  have hca : Ctx (dropSemis a) := by
    refine hc.sub (fun t ht => by rw [hj]; simp [ht]) fun hn => ?_
    refine (nested_split hn hj ?_).1
    have := nested_depth hn
    rw [hj, depth_append, depth_semis] at this
    omega
  obtain ⟨as, b, b1, b2, b3, b4, b5, b6⟩ := bracesLoop_inv hm h hca (dropSemis_last a)
  have e1 : a = altToks (as ++ [(b, j)]) := by
    rw [altToks_append, altToks, altToks, List.append_nil]
    conv_lhs => rw [hj, ← b1]
    simp
  have hsp : ∀ d ∈ as ++ [(b, j)], SpAlt L d.1 := by
    intro d hd
    rcases List.mem_append.1 hd with hd | hd
    · exact (b3 d hd).1
    · rw [List.mem_singleton] at hd; subst hd; exact b4
  rw [e1]
  refine .braces (fun d hd => (hsp d hd).test) (fun d hd => (hsp d hd).colon) (fun d hd => (hsp d hd).star) (fun d hd => (hsp d hd).body)
    (fun d hd => (hsp d hd).nop) (fun d hd => (hsp d hd).semi) ?_ (separated_append (fun d hd => (b3 d hd).2) _) ?_
  · intro d hd
    cases as with
    | nil => simp at hd
    | cons a' as =>
      simp only [List.cons_append, List.tail_cons, List.mem_append, List.mem_singleton] at hd
      rcases hd with hd | rfl
      · exact b6 d hd
      · exact b5 (by simp)
  · rw [chain_eq]
    have : (as ++ [(b, j)]).map (·.1) = as.map (·.1) ++ [b] := by simp
    rw [this, ← b2]

/-! ### The operators with one operand -/

theorem nested_plain_inv {t : Tok} (ht : Plain t) {ts : List Tok} (h : Nested (t :: ts)) : Nested ts :=
  (nested_split (l := [t]) h rfl (by rw [depth_plain ht]; simp)).2

theorem ignored_of {t u : Tok} (hu : Plain u) {ts : List Tok} (ht : Plain t) (hc : Ctx (t :: u :: ts)) (hcl : Careless t)
    (hno : NoneOutside (fun t => t.lvl < 9) (t :: u :: ts)) : Ignored ts := by
  refine ⟨?_, ?_⟩
  · rcases hc.nested with h | h
    · exact nested_plain_inv hu (nested_plain_inv ht h)
    · exact absurd hcl (h t (by simp))
  · have := ((noneOutside_cons hu).1 ((noneOutside_cons ht).1 hno).2).2
    exact noneOutside_mono this fun t h => (anyOperator_iff t).1 h

theorem keyword_or (x : Str) : Keyword x (nameNode x) ∨ ((¬ ∃ e, Keyword x e) ∧ nameNode x = .sym x) := by
  by_cases h : ∃ e, Keyword x e
  · obtain ⟨e, h⟩ := h
    left
    rw [nameNode_keyword h]; exact h
  · exact .inr ⟨h, nameNode_var h⟩

theorem makeUnary_inv {L : Readers} {mk : List Tok → Out Expr} (hm : Reads L mk) {t : Tok} {ts : List Tok} {e : Expr}
    (h : makeUnary L mk t ts = .ok e) (hc : Ctx (t :: ts)) (hno : NoneOutside (fun t => t.lvl < 9) (t :: ts)) :
    Spells L 9 e (t :: ts) := by
  have hsub : Plain t → mk ts = .ok e → Spells L 9 e ts := fun hp hh =>
    hm ts e hh (hc.tail hp) 9 (by omega) ((noneOutside_cons hp).1 hno).2
  have hsub' : Plain t → ∀ {e}, mk ts = .ok e → Spells L 9 e ts := fun hp e hh =>
    hm ts e hh (hc.tail hp) 9 (by omega) ((noneOutside_cons hp).1 hno).2
  cases hd : definedArg t ts with
  | some x =>
    unfold makeUnary at h
    rw [hd] at h
    injection h with h
    subst h
    obtain ⟨rfl, rfl | rfl⟩ := definedArg_some.1 hd
    · exact .defined
    · exact .definedParen
  | none =>
    match t, ts with
    | .num s, u :: us =>
      unfold makeUnary at h
      rw [hd] at h
      dsimp only at h
      obtain ⟨v, hv⟩ := hc.small s (by simp)
      rw [stringToInt_numeral hv, Out.ok_bind] at h
      obtain ⟨e', he, h⟩ := bind_ok h
      injection h with h
      subst h
      exact .times hv (hsub' (plain_num s) he)
    | .num s, [] =>
      unfold makeUnary at h
      rw [hd] at h
      dsimp only at h
      rw [if_neg (by simp)] at h
      obtain ⟨v, hv⟩ := hc.small s (by simp)
      rw [literal, stringToInt_numeral hv, Out.ok_bind] at h
      injection h with h
      subst h
      exact .number hv
    | .lit k s, ts =>
      unfold makeUnary at h
      rw [hd] at h
      dsimp only at h
      by_cases h0 : ts = []
      · subst h0
        rw [if_neg (by simp)] at h
        cases k with
        | string =>
          rw [literal] at h
          injection h with h
          subst h
          exact .string
        | pn => exact .pn h
        | transp => exact .transp h
        | regex => exact .regex h
      · rw [if_pos h0] at h; cases h
    | .name s, ts =>
      by_cases hx : Prefix s
      · unfold makeUnary at h
        rw [hd] at h
        dsimp only at h
        rcases hx with rfl | rfl | rfl
        · rw [if_pos rfl] at h
          by_cases h0 : ts = []
          · rw [if_pos h0] at h; cases h
          · rw [if_neg h0] at h
            obtain ⟨e', he, h⟩ := bind_ok h
            injection h with h
            subst h
            exact .forever (hsub' (plain_name _) he)
        · rw [if_neg (by decide), if_pos rfl] at h
          split at h
          · next x us =>
            injection h with h
            subst h
            exact .echo (ignored_of (plain_lit _ _) (plain_name _) hc (.inr (.inr (.inl rfl))) hno)
          · cases h
        · rw [if_neg (by decide), if_neg (by decide), if_pos rfl] at h
          split at h
          · next x us =>
            injection h with h
            subst h
            exact .save (ignored_of (plain_name _) (plain_name _) hc (.inr (.inr (.inr rfl))) hno)
          · cases h
      · rw [makeUnary_name hd hx] at h
        by_cases h2 : ts.length ≥ 2
        · rw [if_pos h2] at h
          obtain ⟨b, hb, h⟩ := bind_ok h
          cases b with
          | false => cases h
          | true =>
            rw [if_pos rfl] at h
            obtain ⟨es, hes, h⟩ := bind_ok h
            injection h with h
            subst h
            obtain ⟨a, rfl, ha⟩ := isEnclosed_inv .paren hb
            rw [List.tail_cons, List.dropLast_concat] at hes
            have hca : Ctx a := (hc.tail (plain_name s)).sub (fun t ht => by simp [ht]) ha
            have hnd : s = "defined".toList → a ≠ [] → ∀ y, a ≠ [.name y] := by
              intro e1 _ y e2
              subst e1 e2
              have h' : definedArg (.name "defined".toList) (.sym .openParen :: ([.name y] ++ [.sym .closeParen])) = some y :=
                definedArg_some.2 ⟨rfl, .inr rfl⟩
              rw [h'] at hd; cases hd
            unfold makeArgs at hes
            by_cases h0 : a = []
            · rw [if_neg (by simpa using h0)] at hes
              injection hes with hes
              subst h0 hes
              exact Spells.call (items := []) hx (by simp) (by simp) (by simp)
            · rw [if_pos h0] at hes
              obtain ⟨items, rfl, i1, i2, i3, i4⟩ := argsLoop_inv hm hes hca
              subst i4
              refine .call hx (fun e1 y e2 => ?_) i1 i2
              refine hnd e1 h0 y ?_
              rw [e2]; rfl
        · rw [if_neg h2] at h
          by_cases h0 : ts = []
          · subst h0
            rw [if_neg (by simp)] at h
            injection h with h
            subst h
            rcases keyword_or s with hk | ⟨hk, hk2⟩
            · exact .keyword hk
            · rw [hk2]; exact .var hk hx
          · rw [if_pos h0] at h; cases h
    | .sym y, ts =>
      unfold makeUnary at h
      rw [hd] at h
      by_cases hy : y = .increment ∨ y = .decrement ∨ y = .reverse ∨ y = .logicNot
      · rcases hy with rfl | rfl | rfl | rfl
        · match ts, h with
          | .name x :: us, h =>
            injection h with h
            subst h
            exact .increment (ignored_of (plain_name _) (plain_sym rfl rfl) hc (.inl rfl) hno)
        · match ts, h with
          | .name x :: us, h =>
            injection h with h
            subst h
            exact .decrement (ignored_of (plain_name _) (plain_sym rfl rfl) hc (.inr (.inl rfl)) hno)
        · match ts, h with
          | u :: us, h =>
            obtain ⟨e', he, h⟩ := bind_ok h
            injection h with h
            subst h
            exact .reversed (hsub' (plain_sym rfl rfl) he)
        · match ts, h with
          | u :: us, h =>
            obtain ⟨e', he, h⟩ := bind_ok h
            injection h with h
            subst h
            exact .not (hsub' (plain_sym rfl rfl) he)
      · exfalso
        push Not at hy
        obtain ⟨y1, y2, y3, y4⟩ := hy
        have : (if ts ≠ [] then (.throw .runtimeError : Out Expr) else literal L (.sym y)) = .ok e := by
          revert h
          cases y <;> first | exact absurd rfl y1 | exact absurd rfl y2 | exact absurd rfl y3 | exact absurd rfl y4 | exact id
        split at this <;> cases this

/-! ### The operators with two operands -/

theorem level_inv {L : Readers} {mk : List Tok → Out Expr} (hm : Reads L mk) {ts : List Tok} {e : Expr} {rest : Out Expr} (hc : Ctx ts) {i : Nat}
    (hi : i < levels.length) (hno : NoneOutside (fun t => t.lvl < i + 1) ts) (h : binLevel mk ts levels[i] rest = .ok e) :
    (Spells L (i + 1) e ts ∧ ∃ l t r, ts = l ++ t :: r ∧ depth l = 0 ∧ Plain t ∧ t.lvl = i + 1) ∨
      (rest = .ok e ∧ NoneOutside (fun t => t.lvl < i + 2) ts) := by
  have h8 : levels.length = 8 := rfl
  unfold binLevel at h
  obtain ⟨o, ho, h'⟩ := bind_ok h
  clear h
  rename' h' => h
  cases o with
  | none =>
    refine .inr ⟨h, ?_⟩
    have := (absent_iff (P := fun t => t.lvl = i + 1) fun t _ => levels_get i hi t).1 (findFirst_none.1 ho).2
    intro l t r e1 hd hp hlt
    have h1 := hno l t r e1 hd hp
    have h2 := this l t r e1 hd hp
    omega
  | some x =>
    obtain ⟨l', t, r⟩ := x
    obtain ⟨l, h1, rfl, h3, h4, h5, h6⟩ := findFirst_some.1 ho
    rw [List.nil_append] at h1
    subst h1
    have hl := (levels_get i hi t).1 h5
    have hd : depth l' = 0 := by omega
    obtain ⟨y, f, rfl, hop, hb⟩ := operator_of_lvl hl (by omega) (by omega)
    left
    refine ⟨?_, l', .sym y, r, rfl, hd, h4, hl⟩
    dsimp only at h
    split at h
    · cases h
    · obtain ⟨a, ha, h⟩ := bind_ok h
      obtain ⟨b, hbb, h⟩ := bind_ok h
      rw [hb] at h
      injection h with h
      subst h
      obtain ⟨n1, n2⟩ := (noneOutside_append hd).1 hno
      obtain ⟨-, n3⟩ := (noneOutside_cons h4).1 n2
      have h6' := (absent_iff (P := fun t => t.lvl = i + 1) fun t _ => levels_get i hi t).1 h6
      refine .binary hop (hm l' a ha (hc.left hd) _ (by omega) ?_) (hm r b hbb (Ctx.tail (hc.right hd) h4) _ (by omega) n3)
      intro x t z e1 e2 e3 e4
      have k1 := n1 x t z e1 e2 e3
      have k2 := h6' x t z e1 e2 e3
      omega

theorem assign_inv {L : Readers} {mk : List Tok → Out Expr} (hm : Reads L mk) {ts : List Tok} {e : Expr} {rest : Out Expr} (hc : Ctx ts)
    (h : assignLevel mk ts rest = .ok e) :
    (Spells L 0 e ts ∧ ∃ l t r, ts = l ++ t :: r ∧ depth l = 0 ∧ Plain t ∧ t.lvl = 0) ∨
      (rest = .ok e ∧ NoneOutside (fun t => t.lvl < 1) ts) := by
  unfold assignLevel at h
  obtain ⟨o, ho, h'⟩ := bind_ok h
  clear h
  rename' h' => h
  cases o with
  | none =>
    refine .inr ⟨h, ?_⟩
    exact (absent_iff (P := fun t => t.lvl < 1) fun t _ => by rw [assign_lvl]; omega).1 (findFirst_none.1 ho).2
  | some x =>
    obtain ⟨l', t, r⟩ := x
    obtain ⟨l, h1, rfl, h3, h4, h5, h6⟩ := findFirst_some.1 ho
    rw [List.nil_append] at h1
    subst h1
    have hl := (assign_lvl t).1 h5
    have hd : depth l' = 0 := by omega
    left
    refine ⟨?_, l', t, r, rfl, hd, h4, hl⟩
    have hr : ∀ {e}, mk r = .ok e → Spells L 0 e r := fun hh => hm.zero hh (Ctx.tail (hc.right hd) h4)
    split at h
    · next x r' heq =>
      injection heq with heq; injection heq with e1 heq; injection heq with e2 e3
      subst e1 e2 e3
      split at h
      · next h0 =>
        injection h with h
        subst h h0
        exact .assignNothing
      · obtain ⟨a, ha, h⟩ := bind_ok h
        injection h with h
        subst h
        exact .assign (hr ha)
    · next x r' heq =>
      injection heq with heq; injection heq with e1 heq; injection heq with e2 e3
      subst e1 e2 e3
      split at h
      · cases h
      · obtain ⟨a, ha, h⟩ := bind_ok h
        injection h with h
        subst h
        exact .append (hr ha)
    · next x r' heq =>
      injection heq with heq; injection heq with e1 heq; injection heq with e2 e3
      subst e1 e2 e3
      split at h
      · cases h
      · obtain ⟨a, ha, h⟩ := bind_ok h
        injection h with h
        subst h
        exact .immediate (hr ha)
    · cases h
    · next heq => cases heq

theorem levels_inv {L : Readers} {mk : List Tok → Out Expr} (hm : Reads L mk) {ts : List Tok} {e : Expr} {rest : Out Expr} (hc : Ctx ts) :
    ∀ (k i : Nat), i + k = 8 → NoneOutside (fun t => t.lvl < i + 1) ts → (levels.drop i).foldr (binLevel mk ts) rest = .ok e →
    (∃ q, q ≤ 9 ∧ Spells L q e ts ∧ ∃ l t r, ts = l ++ t :: r ∧ depth l = 0 ∧ Plain t ∧ t.lvl = q) ∨
      (rest = .ok e ∧ NoneOutside (fun t => t.lvl < 9) ts) := by
  have h8 : levels.length = 8 := rfl
  intro k
  induction k with
  | zero =>
    intro i hi hno h
    rw [List.drop_eq_nil_of_le (by omega)] at h
    exact .inr ⟨h, noneOutside_mono hno fun t ht => by omega⟩
  | succ k ih =>
    intro i hi hno h
    rw [List.drop_eq_getElem_cons (by omega), List.foldr_cons] at h
    rcases level_inv hm hc (by omega) hno h with ⟨h1, h2⟩ | ⟨h1, h2⟩
    · exact .inl ⟨i + 1, by omega, h1, h2⟩
    · exact ih (i + 1) (by omega) h2 h1

theorem reads_makeExpr (L : Readers) (n : Nat) : Reads L (makeExpr L n) := by
  induction n with
  | zero => intro ts e h; cases h
  | succ n ih =>
    intro ts e h hc p hp hno
    cases ts with
    | nil => cases h
    | cons t ts =>
      rw [makeExpr] at h
      obtain ⟨b, hb, h'⟩ := bind_ok h
      clear h
      rename' h' => h
      cases b with
      | true =>
        rw [if_pos rfl] at h
        obtain ⟨a, e1, ha⟩ := isEnclosed_inv .paren hb
        injection e1 with e1 e2
        subst e1 e2
        rw [List.dropLast_concat] at h
        exact spells_down (by omega) (.paren (ih.zero h (hc.sub (fun t ht => by simp [ht]) ha))) hp
      | false =>
        rw [if_neg (by simp)] at h
        obtain ⟨b, hb, h'⟩ := bind_ok h
        clear h
        rename' h' => h
        cases b with
        | true =>
          rw [if_pos rfl] at h
          obtain ⟨a, e1, ha⟩ := isEnclosed_inv .brace hb
          injection e1 with e1 e2
          subst e1 e2
          rw [List.dropLast_concat] at h
          obtain ⟨o, ho, h'⟩ := bind_ok h
          clear h
          rename' h' => h
          cases o with
          | none => cases h
          | some e' =>
            injection h with h
            subst h
            exact spells_down (by omega) (braces_spells ih ho (hc.sub (fun t ht => by simp [ht]) ha)) hp
        | false =>
          rw [if_neg (by simp)] at h
          obtain ⟨b, hb, h'⟩ := bind_ok h
          clear h
          rename' h' => h
          cases b with
          | true =>
            rw [if_pos rfl] at h
            obtain ⟨a, e1, ha⟩ := isEnclosed_inv .brack hb
            injection e1 with e1 e2
            subst e1 e2
            rw [List.dropLast_concat] at h
            obtain ⟨es, hes, h'⟩ := bind_ok h
            clear h
            rename' h' => h
            injection h with h
            subst h
            obtain ⟨items, trail, rfl, i1, i2, i3, rfl⟩ := parseList_inv ih hes (hc.sub (fun t ht => by simp [ht]) ha)
            exact spells_down (by omega) (.array i1 i2 i3) hp
          | false =>
            rw [if_neg (by simp)] at h
            have fin : ∀ {q}, q ≤ 9 → Spells L q e (t :: ts) → (∃ l u r, t :: ts = l ++ u :: r ∧ depth l = 0 ∧ Plain u ∧ u.lvl = q) →
                Spells L p e (t :: ts) := by
              rintro q hq hs ⟨l, u, r, e1, e2, e3, e4⟩
              refine spells_down hq hs ?_
              have := hno l u r e1 e2 e3
              omega
            rcases assign_inv ih hc h with ⟨h1, h2⟩ | ⟨h1, h2⟩
            · exact fin (by omega) h1 h2
            · rcases levels_inv ih hc 8 0 rfl h2 h1 with ⟨q, hq, h3, h4⟩ | ⟨h3, h4⟩
              · exact fin hq h3 h4
              · exact spells_down (by omega) (makeUnary_inv ih h3 hc h4) hp

end Ringing.Siril
