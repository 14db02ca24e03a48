import Verif.Lemmas.SirilParser4
/-
`make_expr` of apps/gsiril/parser.cpp ends, with an expression or an exception.
-/
namespace Ringing.Siril
open Grammar

/-- A result or an exception. -/
def Answers {α : Type} (x : Out α) : Prop := (∃ a, x = .ok a) ∨ ∃ e, x = .throw e

theorem ends_ok {α : Type} (a : α) : Answers (.ok a) := .inl ⟨a, rfl⟩
theorem ends_throw {α : Type} (e : Err) : Answers (.throw e : Out α) := .inr ⟨e, rfl⟩

theorem ends_bind {α β : Type} {x : Out α} {f : α → Out β} (hx : Answers x) (hf : ∀ a, x = .ok a → Answers (f a)) : Answers (x >>= f) := by
  rcases hx with ⟨a, rfl⟩ | ⟨e, rfl⟩
  · exact hf a rfl
  · exact ends_throw e

theorem ends_findFirst (p : Tok → Bool) (pre : List Tok) (d : Int) (ts : List Tok) : Answers (findFirst p pre d ts) := by
  rcases findFirst_cases p pre d ts with h | ⟨o, h⟩ <;> rw [h]
  · exact ends_throw _
  · exact ends_ok _

theorem ends_findLast (p : Tok → Bool) (f : Option (List Tok × Tok × List Tok)) (pre : List Tok) (d : Int) (ts : List Tok) :
    Answers (findLast p f pre d ts) := by
  rcases findLast_cases p f pre d ts with h | ⟨o, h⟩ <;> rw [h]
  · exact ends_throw _
  · exact ends_ok _

theorem ends_isEnclosed (o c : Sym) (ts : List Tok) : Answers (isEnclosed o c ts) := by
  rcases isEnclosed_cases o c ts with h | ⟨b, h⟩ <;> rw [h]
  · exact ends_throw _
  · exact ends_ok _

theorem ends_stringToInt (s : Str) : Answers (stringToInt s) := by
  unfold stringToInt
  dsimp only
  split
  · exact ends_ok _
  · exact ends_throw _

/-- The readers of literals end. -/
structure ReadersEnd (L : Readers) : Prop where
  pn : ∀ s, Answers (L.pn s)
  transp : ∀ s, Answers (L.transp s)
  regex : ∀ s, Answers (L.regex s)

theorem ends_binLevel {mk : List Tok → Out Expr} {ts : List Tok} (hm : ∀ us, us.length < ts.length → Answers (mk us)) {i : Nat}
    (hi : i < levels.length) {rest : Out Expr} (hr : Answers rest) : Answers (binLevel mk ts levels[i] rest) := by
  have h8 : levels.length = 8 := rfl
  unfold binLevel
  refine ends_bind (ends_findFirst _ _ _ _) fun o ho => ?_
  cases o with
  | none => exact hr
  | some x =>
    obtain ⟨l', t, r⟩ := x
    obtain ⟨l, h1, rfl, h3, h4, h5, h6⟩ := findFirst_some.1 ho
    rw [List.nil_append] at h1
    subst h1
    have hl := (levels_get i hi t).1 h5
    obtain ⟨y, f, rfl, hop, hb⟩ := operator_of_lvl hl (by omega) (by omega)
    dsimp only
    split
    · exact ends_throw _
    · refine ends_bind (hm _ (by simp)) fun a _ => ends_bind (hm _ (by simp; omega)) fun b _ => ?_
      rw [hb]; exact ends_ok _

theorem ends_assignLevel {mk : List Tok → Out Expr} {ts : List Tok} (hm : ∀ us, us.length < ts.length → Answers (mk us))
    {rest : Out Expr} (hr : Answers rest) : Answers (assignLevel mk ts rest) := by
  unfold assignLevel
  refine ends_bind (ends_findFirst _ _ _ _) fun o ho => ?_
  cases o with
  | none => exact hr
  | some x =>
    obtain ⟨l', t, r⟩ := x
    obtain ⟨l, h1, h2, h3, h4, h5, h6⟩ := findFirst_some.1 ho
    have hlen : r.length < ts.length := by rw [h2]; simp; omega
    split <;> (try split) <;> first | exact ends_ok _ | exact ends_throw _ | exact hr | skip
    all_goals
      rename_i heq _
      injection heq with heq; injection heq with e1 heq; injection heq with e2 e3
      subst e3
      exact ends_bind (hm _ hlen) fun _ _ => ends_ok _

theorem find1_length {y : Sym} {ts l : List Tok} {t : Tok} {r : List Tok} (h : find1 y ts = .ok (some (l, t, r))) :
    l.length + 1 + r.length = ts.length := by
  unfold find1 at h
  obtain ⟨l, h1, h2, -⟩ := findFirst_some.1 h
  rw [List.nil_append] at h1
  subst h1 h2
  simp; omega

theorem ends_parseList {mk : List Tok → Out Expr} : ∀ {k : Nat} {ts : List Tok}, ts.length < k → (∀ us, us.length ≤ ts.length → Answers (mk us)) →
    Answers (parseList mk k ts)
  | 0, _, h, _ => by omega
  | k + 1, ts, h, hm => by
    rw [parseList]
    refine ends_bind (ends_findFirst _ _ _ _) fun o ho => ?_
    cases o with
    | none =>
      dsimp only
      split
      · exact ends_bind (hm _ (le_refl _)) fun _ _ => ends_ok _
      · exact ends_ok _
    | some x =>
      obtain ⟨l, t, r⟩ := x
      have := find1_length ho
      exact ends_bind (hm _ (by omega)) fun _ _ => ends_bind (ends_parseList (by omega) fun us hu => hm us (by omega)) fun _ _ => ends_ok _

theorem ends_argsLoop {mk : List Tok → Out Expr} : ∀ {k : Nat} {ts : List Tok}, ts.length < k → (∀ us, us.length ≤ ts.length → Answers (mk us)) →
    Answers (argsLoop mk k ts)
  | 0, _, h, _ => by omega
  | k + 1, ts, h, hm => by
    rw [argsLoop]
    refine ends_bind (ends_findFirst _ _ _ _) fun o ho => ?_
    cases o with
    | none =>
      dsimp only
      split
      · exact ends_throw _
      · exact ends_bind (hm _ (le_refl _)) fun _ _ => ends_ok _
    | some x =>
      obtain ⟨l, t, r⟩ := x
      have := find1_length ho
      dsimp only
      split
      · exact ends_throw _
      · exact ends_bind (hm _ (by omega)) fun _ _ => ends_bind (ends_argsLoop (by omega) fun us hu => hm us (by omega)) fun _ _ => ends_ok _

theorem ends_alternative {L : Readers} (hL : ReadersEnd L) {mk : List Tok → Out Expr} {ts : List Tok}
    (hm : ∀ us, us.length ≤ ts.length → Answers (mk us)) : Answers (alternative L mk ts) := by
  unfold alternative
  refine ends_bind (ends_findFirst _ _ _ _) fun o ho => ?_
  cases o with
  | none =>
    refine ends_bind (hL.regex _) fun _ _ => ends_bind ?_ fun _ _ => ends_ok _
    split
    · exact hm _ (le_refl _)
    · exact ends_ok _
  | some x =>
    obtain ⟨l, t, r⟩ := x
    have := find1_length ho
    refine ends_bind (hm _ (by omega)) fun _ _ => ends_bind ?_ fun _ _ => ends_ok _
    split
    · exact hm _ (by omega)
    · exact ends_ok _

theorem ends_bracesLoop {L : Readers} (hL : ReadersEnd L) {mk : List Tok → Out Expr} : ∀ {k : Nat} {c : Option Expr} {ts : List Tok}, ts.length < k →
    (∀ us, us.length ≤ ts.length → Answers (mk us)) → Answers (bracesLoop L mk k c ts)
  | 0, _, _, h, _ => by omega
  | k + 1, c, ts, h, hm => by
    rw [bracesLoop]
    refine ends_bind (ends_findLast _ _ _ _ _) fun o ho => ?_
    cases o with
    | none => exact ends_bind (ends_alternative hL hm) fun _ _ => ends_ok _
    | some x =>
      obtain ⟨l', t, r⟩ := x
      have hl : l'.length + 1 + r.length = ts.length := by
        rcases (findLast_inv ho).2 with ⟨h, -⟩ | ⟨l, t', r', h1, h2, -⟩
        · cases h
        · injection h1 with h1
          injection h1 with e1 h1
          injection h1 with e2 e3
          rw [List.nil_append] at e1
          subst e1 e3
          rw [h2]; simp; omega
      have := length_dropSemis l'
      refine ends_bind (ends_alternative hL fun us hu => hm us (by omega)) fun a _ => ?_
      exact ends_bracesLoop hL (by omega) fun us hu => hm us (by omega)

theorem ends_literal {L : Readers} (hL : ReadersEnd L) (t : Tok) : Answers (literal L t) := by
  unfold literal
  split
  · exact ends_ok _
  · exact ends_ok _
  · exact hL.pn _
  · exact hL.transp _
  · exact hL.regex _
  · exact ends_bind (ends_stringToInt _) fun _ _ => ends_ok _
  · exact ends_throw _

theorem ends_makeUnary {L : Readers} (hL : ReadersEnd L) {mk : List Tok → Out Expr} {t : Tok} {ts : List Tok}
    (hm : ∀ us, us.length ≤ ts.length → Answers (mk us)) : Answers (makeUnary L mk t ts) := by
  have one : ∀ {t : Tok}, Answers (if ts ≠ [] then (.throw .runtimeError : Out Expr) else literal L t) := by
    intro t
    split
    · exact ends_throw _
    · exact ends_literal hL t
  have sub : ∀ {u us} {f : Expr → Expr}, ts = u :: us → Answers (mk (u :: us) >>= fun e => .ok (f e)) := by
    intro u us f e
    exact ends_bind (hm _ (by rw [e])) fun _ _ => ends_ok _
  unfold makeUnary
  split
  · exact ends_ok _
  · split
    · exact ends_bind (ends_stringToInt _) fun v _ => ends_bind (hm _ (le_refl _)) fun _ _ => ends_ok _
    · split
      · exact ends_ok _
      · exact ends_throw _
    · exact ends_throw _
    · split
      · exact ends_ok _
      · exact ends_throw _
    · exact ends_throw _
    · exact sub rfl
    · exact ends_throw _
    · exact sub rfl
    · exact ends_throw _
    · split
      · split
        · exact ends_throw _
        · exact ends_bind (hm _ (le_refl _)) fun _ _ => ends_ok _
      · split
        · split
          · exact ends_ok _
          · exact ends_throw _
        · split
          · split
            · exact ends_ok _
            · exact ends_throw _
          · split
            · refine ends_bind (ends_isEnclosed _ _ _) fun b hb => ?_
              split
              · refine ends_bind ?_ fun _ _ => ends_ok _
                unfold makeArgs
                split
                · exact ends_argsLoop (by omega) fun us hu => hm us (by simp at hu; omega)
                · exact ends_ok _
              · exact ends_throw _
            · exact one
    · exact one

theorem ends_makeExpr {L : Readers} (hL : ReadersEnd L) : ∀ {n : Nat} {ts : List Tok}, ts.length < n → Answers (makeExpr L n ts)
  | 0, _, h => by omega
  | n + 1, [], _ => ends_throw _
  | n + 1, t :: ts, h => by
    have hm : ∀ us : List Tok, us.length ≤ ts.length → Answers (makeExpr L n us) := fun us hu =>
      ends_makeExpr hL (by simp at h; omega)
    have h8 : levels.length = 8 := rfl
    rw [makeExpr]
    refine ends_bind (ends_isEnclosed _ _ _) fun b _ => ?_
    split
    · exact hm _ (by simp)
    refine ends_bind (ends_isEnclosed _ _ _) fun b _ => ?_
    split
    · have := length_dropSemis ts.dropLast
      simp only [List.length_dropLast] at this
      refine ends_bind (ends_bracesLoop hL (by omega) fun us hu => hm us (by omega)) fun o _ => ?_
      cases o
      · exact ends_throw _
      · exact ends_ok _
    refine ends_bind (ends_isEnclosed _ _ _) fun b _ => ?_
    split
    · exact ends_bind (ends_parseList (by simp) fun us hu => hm us (by simp at hu; omega)) fun _ _ => ends_ok _
    refine ends_assignLevel (fun us hu => hm us (by simp at hu; omega)) ?_
    have : ∀ k i : Nat, i + k = 8 →
        Answers ((levels.drop i).foldr (binLevel (makeExpr L n) (t :: ts)) (makeUnary L (makeExpr L n) t ts)) := by
      intro k
      induction k with
      | zero =>
        intro i hi
        rw [List.drop_eq_nil_of_le (by omega)]
        exact ends_makeUnary hL hm
      | succ k ih =>
        intro i hi
        rw [List.drop_eq_getElem_cons (by omega), List.foldr_cons]
        exact ends_binLevel (fun us hu => hm us (by simp at hu; omega)) (by omega) (ih (i + 1) (by omega))
    exact this 8 0 rfl

end Ringing.Siril
