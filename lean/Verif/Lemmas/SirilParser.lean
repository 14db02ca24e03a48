import Verif.Spec.SirilGrammar
/-
Scanning tokens: `find_one_of` and `is_enclosed` of apps/gsiril/parser.cpp in terms of the depth of brackets.
-/
namespace Ringing.Siril
open Grammar

theorem opens_iff (t : Tok) : t.opens = true ↔ Opening t := by
  constructor
  · intro h
    match t, h with
    | .sym .openBrace, _ => exact ⟨_, _, .brace, rfl⟩
    | .sym .openParen, _ => exact ⟨_, _, .paren, rfl⟩
    | .sym .openBrack, _ => exact ⟨_, _, .brack, rfl⟩
  · rintro ⟨o, c, h, rfl⟩; cases h <;> rfl

theorem closes_iff (t : Tok) : t.closes = true ↔ Closing t := by
  constructor
  · intro h
    match t, h with
    | .sym .closeBrace, _ => exact ⟨_, _, .brace, rfl⟩
    | .sym .closeParen, _ => exact ⟨_, _, .paren, rfl⟩
    | .sym .closeBrack, _ => exact ⟨_, _, .brack, rfl⟩
  · rintro ⟨o, c, h, rfl⟩; cases h <;> rfl

theorem opens_not_closes {t : Tok} (h : t.opens = true) : t.closes = false := by
  obtain ⟨o, c, hp, rfl⟩ := (opens_iff t).1 h
  clear h
  cases hp <;> rfl

theorem plain_iff (t : Tok) : Plain t ↔ t.opens = false ∧ t.closes = false := by
  unfold Plain
  rw [← opens_iff, ← closes_iff]
  simp

/-- The depth of one token. -/
def Tok.d (t : Tok) : Int := if t.opens then 1 else if t.closes then -1 else 0

theorem depth_cons (t : Tok) (ts : List Tok) : depth (t :: ts) = t.d + depth ts := by
  unfold Tok.d
  rw [depth]
  congr 1
  by_cases h : t.opens = true
  · rw [if_pos h, if_pos ((opens_iff t).1 h)]
  · rw [if_neg h, if_neg (fun e => h ((opens_iff t).2 e))]
    by_cases h : t.closes = true
    · rw [if_pos h, if_pos ((closes_iff t).1 h)]
    · rw [if_neg h, if_neg (fun e => h ((closes_iff t).2 e))]

@[simp] theorem depth_nil : depth [] = 0 := by rw [depth]

theorem depth_append (a b : List Tok) : depth (a ++ b) = depth a + depth b := by
  induction a with
  | nil => simp
  | cons t a ih => rw [List.cons_append, depth_cons, depth_cons, ih]; omega

theorem Tok.d_plain {t : Tok} (h : Plain t) : t.d = 0 := by
  obtain ⟨a, b⟩ := (plain_iff t).1 h
  unfold Tok.d
  rw [a, b]; rfl

theorem Tok.d_open {o c : Sym} (h : Pair o c) : (Tok.sym o).d = 1 := by cases h <;> rfl
theorem Tok.d_close {o c : Sym} (h : Pair o c) : (Tok.sym c).d = -1 := by cases h <;> rfl

theorem depth_plain {t : Tok} (h : Plain t) (ts : List Tok) : depth (t :: ts) = depth ts := by
  rw [depth_cons, Tok.d_plain h]; omega

theorem nested_depth {ts : List Tok} (h : Nested ts) : depth ts = 0 := by
  induction h with
  | nil => simp
  | plain h _ ih => rw [depth_plain h, ih]
  | group h _ _ ih1 ih2 =>
    rw [depth_cons, depth_append, depth_cons, Tok.d_open h, Tok.d_close h]; omega

theorem nested_append {a b : List Tok} (ha : Nested a) (hb : Nested b) : Nested (a ++ b) := by
  induction ha with
  | nil => exact hb
  | plain h _ ih => exact .plain h ih
  | @group o c x ts h h1 h2 _ ih2 =>
    have : Tok.sym o :: (x ++ Tok.sym c :: ts) ++ b = Tok.sym o :: (x ++ Tok.sym c :: (ts ++ b)) := by simp
    rw [this]
    exact .group h h1 ih2

theorem nested_group {o c : Sym} (h : Pair o c) {a : List Tok} (ha : Nested a) :
    Nested (.sym o :: (a ++ [.sym c])) := .group h ha .nil

/-- In nested tokens no more brackets have been closed than opened. -/
theorem nested_prefix {ts : List Tok} (h : Nested ts) : ∀ {l r}, ts = l ++ r → 0 ≤ depth l := by
  induction h with
  | nil =>
    intro l r e
    obtain ⟨rfl, -⟩ := List.append_eq_nil_iff.1 e.symm
    simp
  | plain hp _ ih =>
    intro l r e
    cases l with
    | nil => simp
    | cons t l =>
      injection e with e1 e2
      subst e1
      rw [depth_plain hp]; exact ih e2
  | @group o c a ts hp h1 h2 ih1 ih2 =>
    intro l r e
    cases l with
    | nil => simp
    | cons t l =>
      injection e with e1 e2
      subst e1
      rw [depth_cons, Tok.d_open hp]
      rcases List.append_eq_append_iff.1 e2 with ⟨m, rfl, e3⟩ | ⟨m, e3, e4⟩
      · cases m with
        | nil => have := nested_depth h1; simp [this]
        | cons u m =>
          injection e3 with e3 e4
          subst e3
          have := ih2 e4
          rw [depth_append, depth_cons, Tok.d_close hp, nested_depth h1]; omega
      · have := ih1 e3; omega

/-! ### `NoneOutside` -/

theorem noneOutside_nil (P : Tok → Prop) : NoneOutside P [] := by
  intro l t r e; cases l <;> cases e

theorem noneOutside_append {P : Tok → Prop} {a b : List Tok} (ha : depth a = 0) :
    NoneOutside P (a ++ b) ↔ NoneOutside P a ∧ NoneOutside P b := by
  constructor
  · intro h
    refine ⟨fun l t r e hd hp => h l t (r ++ b) (by rw [e]; simp) hd hp,
      fun l t r e hd hp => h (a ++ l) t r (by rw [e]; simp) (by rw [depth_append]; omega) hp⟩
  · rintro ⟨h1, h2⟩ l t r e hd hp
    rcases List.append_eq_append_iff.1 e with ⟨m, rfl, e3⟩ | ⟨m, e3, e4⟩
    · exact h2 m t r e3 (by rw [depth_append] at hd; omega) hp
    · cases m with
      | nil => simp at e4 e3; subst e3; exact h2 [] t r (by rw [← e4]; rfl) (by simp) hp
      | cons u m =>
        injection e4 with e4 e5
        subst e4
        exact h1 l t m e3 hd hp

theorem noneOutside_cons {P : Tok → Prop} {t : Tok} (ht : Plain t) {ts : List Tok} :
    NoneOutside P (t :: ts) ↔ ¬ P t ∧ NoneOutside P ts := by
  have := noneOutside_append (P := P) (a := [t]) (b := ts) (by rw [depth_plain ht]; simp)
  rw [List.singleton_append] at this
  rw [this]
  refine and_congr_left fun _ => ⟨fun h => h [] t [] rfl (by simp) ht, fun h l u r e hd hu => ?_⟩
  cases l with
  | nil => injection e with e _; rw [← e]; exact h
  | cons x l => injection e with _ e; cases l <;> cases e

theorem noneOutside_group {P : Tok → Prop} {o c : Sym} (h : Pair o c) {a : List Tok} (ha : Nested a) :
    NoneOutside P (.sym o :: (a ++ [.sym c])) := by
  intro l t r e hd hp
  cases l with
  | nil =>
    injection e with e _
    exact absurd ⟨o, c, h, e.symm⟩ hp.1
  | cons x l =>
    injection e with e1 e2
    subst e1
    rw [depth_cons, Tok.d_open h] at hd
    rcases List.append_eq_append_iff.1 e2 with ⟨m, rfl, e3⟩ | ⟨m, e3, e4⟩
    · cases m with
      | nil =>
        injection e3 with e3 _
        exact absurd ⟨o, c, h, e3.symm⟩ hp.2
      | cons u m => injection e3 with _ e3; cases m <;> cases e3
    · have := nested_prefix ha e3; omega

theorem noneOutside_mono {P Q : Tok → Prop} {ts : List Tok} (hq : NoneOutside Q ts) (h : ∀ t, P t → Q t) : NoneOutside P ts :=
  fun l t r e hd hp hP => hq l t r e hd hp (h t hP)

/-! ### `find_one_of` -/

/-- None of the tokens outside brackets is looked for, when the depth is `d` before them. -/
def Absent (p : Tok → Bool) (d : Int) (ts : List Tok) : Prop :=
  ∀ l t r, ts = l ++ t :: r → d + depth l = 0 → Plain t → p t = false

theorem absent_cons {p : Tok → Bool} {d : Int} {t : Tok} {ts : List Tok} :
    Absent p d (t :: ts) ↔ (d = 0 → Plain t → p t = false) ∧ Absent p (d + t.d) ts := by
  constructor
  · intro h
    refine ⟨fun hd hp => h [] t ts rfl (by simp [hd]) hp, fun l u r e hd hp => h (t :: l) u r (by rw [e]; rfl) ?_ hp⟩
    rw [depth_cons]; omega
  · rintro ⟨h1, h2⟩ l u r e hd hp
    cases l with
    | nil => injection e with e _; subst e; exact h1 (by simpa using hd) hp
    | cons x l =>
      injection e with e1 e2
      subst e1
      rw [depth_cons] at hd
      exact h2 l u r e2 (by omega) hp

theorem absent_iff {P : Tok → Prop} {p : Tok → Bool} (h : ∀ t, Plain t → (p t = true ↔ P t)) {ts : List Tok} :
    Absent p 0 ts ↔ NoneOutside P ts := by
  constructor
  · intro ha l t r e hd hp hP
    have := ha l t r e (by omega) hp
    rw [(h t hp).2 hP] at this; cases this
  · intro ha l t r e hd hp
    have := ha l t r e (by omega) hp
    cases hpt : p t
    · rfl
    · exact absurd ((h t hp).1 hpt) this

/-- The step of the loops. -/
theorem findFirst_cons (p : Tok → Bool) (pre : List Tok) (d : Int) (t : Tok) (ts : List Tok) :
    findFirst p pre d (t :: ts) =
      if t.opens = false ∧ t.closes = false ∧ d = 0 ∧ p t = true then .ok (some (pre, t, ts))
      else findFirst p (pre ++ [t]) (d + t.d) ts := by
  rw [findFirst]
  unfold Tok.d
  by_cases h : t.opens = true
  · rw [if_pos h, if_pos h, if_neg (by rintro ⟨x, -⟩; rw [x] at h; cases h)]
  · rw [if_neg h, if_neg h]
    by_cases h2 : t.closes = true
    · rw [if_pos h2, if_pos h2, if_neg (by rintro ⟨-, x, -⟩; rw [x] at h2; cases h2)]; rfl
    · rw [if_neg h2, if_neg h2]
      have h' : t.opens = false := by simpa using h
      have h2' : t.closes = false := by simpa using h2
      by_cases h3 : d = 0 ∧ p t = true
      · rw [if_pos h3, if_pos ⟨h', h2', h3.1, h3.2⟩]
      · rw [if_neg h3, if_neg (fun x => h3 x.2.2)]; simp

theorem findFirst_none {p : Tok → Bool} {pre : List Tok} {d : Int} {ts : List Tok} :
    findFirst p pre d ts = .ok none ↔ d + depth ts = 0 ∧ Absent p d ts := by
  induction ts generalizing pre d with
  | nil =>
    rw [findFirst]
    by_cases h : d = 0
    · rw [if_neg (by simpa using h)]
      simp only [depth_nil, h, true_iff]
      exact ⟨by omega, fun l t r e => by cases l <;> cases e⟩
    · rw [if_pos h]
      simp only [depth_nil]
      constructor
      · intro e; cases e
      · rintro ⟨e, -⟩; omega
  | cons t ts ih =>
    rw [findFirst_cons, absent_cons]
    by_cases h : t.opens = false ∧ t.closes = false ∧ d = 0 ∧ p t = true
    · rw [if_pos h]
      constructor
      · intro e; injection e with e; cases e
      · rintro ⟨-, e, -⟩
        have := e h.2.2.1 ((plain_iff t).2 ⟨h.1, h.2.1⟩)
        rw [h.2.2.2] at this; cases this
    · rw [if_neg h, ih, depth_cons]
      constructor
      · rintro ⟨e1, e2⟩
        refine ⟨by omega, fun hd hp => ?_, e2⟩
        obtain ⟨a, b⟩ := (plain_iff t).1 hp
        cases hpt : p t
        · rfl
        · exact absurd ⟨a, b, hd, hpt⟩ h
      · rintro ⟨e1, -, e2⟩
        exact ⟨by omega, e2⟩

theorem findFirst_some {p : Tok → Bool} {pre : List Tok} {d : Int} {ts l' : List Tok} {t : Tok} {r : List Tok} :
    findFirst p pre d ts = .ok (some (l', t, r)) ↔
      ∃ l, l' = pre ++ l ∧ ts = l ++ t :: r ∧ d + depth l = 0 ∧ Plain t ∧ p t = true ∧ Absent p d l := by
  induction ts generalizing pre d with
  | nil =>
    rw [findFirst]
    constructor
    · intro e; split at e
      · cases e
      · injection e with e; cases e
    · rintro ⟨l, -, e, -⟩; cases l <;> cases e
  | cons u ts ih =>
    rw [findFirst_cons]
    by_cases h : u.opens = false ∧ u.closes = false ∧ d = 0 ∧ p u = true
    · rw [if_pos h]
      have hpu := (plain_iff u).2 ⟨h.1, h.2.1⟩
      constructor
      · intro e
        injection e with e; injection e with e; injection e with e1 e2; injection e2 with e2 e3
        subst e1 e2 e3
        exact ⟨[], by simp, rfl, by simp [h.2.2.1], hpu, h.2.2.2, fun l t r e => by cases l <;> cases e⟩
      · rintro ⟨l, e1, e2, e3, e4, e5, e6⟩
        cases l with
        | nil => injection e2 with a b; subst a b; rw [e1]; simp
        | cons x l =>
          injection e2 with a b
          subst a
          have := e6 [] u l rfl (by simp [h.2.2.1]) hpu
          rw [h.2.2.2] at this; cases this
    · rw [if_neg h, ih]
      constructor
      · rintro ⟨l, e1, e2, e3, e4, e5, e6⟩
        refine ⟨u :: l, by rw [e1]; simp, by rw [e2]; rfl, by rw [depth_cons]; omega, e4, e5, ?_⟩
        rw [absent_cons]
        refine ⟨fun hd hp => ?_, e6⟩
        obtain ⟨a, b⟩ := (plain_iff u).1 hp
        cases hpt : p u
        · rfl
        · exact absurd ⟨a, b, hd, hpt⟩ h
      · rintro ⟨l, e1, e2, e3, e4, e5, e6⟩
        cases l with
        | nil =>
          injection e2 with a b
          subst a b
          obtain ⟨x, y⟩ := (plain_iff u).1 e4
          exact absurd ⟨x, y, by simpa using e3, e5⟩ h
        | cons x l =>
          injection e2 with a b
          subst a
          exact ⟨l, by rw [e1]; simp, b, by rw [depth_cons] at e3; omega, e4, e5, (absent_cons.1 e6).2⟩

theorem findFirst_cases (p : Tok → Bool) (pre : List Tok) (d : Int) (ts : List Tok) :
    findFirst p pre d ts = .throw .runtimeError ∨ ∃ o, findFirst p pre d ts = .ok o := by
  induction ts generalizing pre d with
  | nil => rw [findFirst]; split <;> simp
  | cons t ts ih =>
    rw [findFirst_cons]; split
    · exact .inr ⟨_, rfl⟩
    · exact ih _ _

/-- The last one: what is before it, and nothing found after it. -/
theorem findLast_none {p : Tok → Bool} {fnd : Option (List Tok × Tok × List Tok)} {pre : List Tok} {d : Int} {ts : List Tok}
    (ha : Absent p d ts) (hd : d + depth ts = 0) : findLast p fnd pre d ts = .ok fnd := by
  induction ts generalizing pre d with
  | nil =>
    rw [findLast, if_neg]
    simpa using hd
  | cons t ts ih =>
    have hc := absent_cons.1 ha
    rw [depth_cons] at hd
    rw [findLast]
    have hdd := @Tok.d.eq_1 t
    by_cases h : t.opens = true
    · rw [if_pos h] at hdd
      rw [if_pos h, ← hdd]; exact ih hc.2 (by omega)
    · rw [if_neg h] at hdd
      rw [if_neg h]
      by_cases h2 : t.closes = true
      · rw [if_pos h2] at hdd
        rw [if_pos h2, show d - 1 = d + t.d by omega]; exact ih hc.2 (by omega)
      · rw [if_neg h2] at hdd
        rw [if_neg h2, if_neg]
        · have := hc.2
          rw [hdd] at this
          exact ih (by simpa using this) (by omega)
        · rintro ⟨e1, e2⟩
          have := hc.1 e1 ((plain_iff t).2 ⟨by simpa using h, by simpa using h2⟩)
          rw [e2] at this; cases this

theorem findLast_append {p : Tok → Bool} {fnd : Option (List Tok × Tok × List Tok)} {pre l : List Tok} {d : Int} {t : Tok} {r : List Tok}
    (ht : Plain t) (hp : p t = true) (hd : d + depth l = 0) (ha : Absent p 0 r) (hr : depth r = 0) :
    findLast p fnd pre d (l ++ t :: r) = .ok (some (pre ++ l, t, r)) := by
  induction l generalizing pre d fnd with
  | nil =>
    obtain ⟨a, b⟩ := (plain_iff t).1 ht
    have hd0 : d = 0 := by simpa using hd
    subst hd0
    rw [List.nil_append, findLast, a, b]
    simp only [hp, Bool.false_eq_true, if_false, and_self, if_true, List.append_nil]
    exact findLast_none ha (by omega)
  | cons u l ih =>
    rw [depth_cons] at hd
    rw [List.cons_append, findLast]
    have hdd := @Tok.d.eq_1 u
    have e : pre ++ u :: l = (pre ++ [u]) ++ l := by simp
    rw [e]
    by_cases h : u.opens = true
    · rw [if_pos h] at hdd
      rw [if_pos h, ← hdd]; exact ih (by omega)
    · rw [if_neg h] at hdd
      rw [if_neg h]
      by_cases h2 : u.closes = true
      · rw [if_pos h2] at hdd
        rw [if_pos h2, show d - 1 = d + u.d by omega]; exact ih (by omega)
      · rw [if_neg h2] at hdd
        rw [if_neg h2]
        split
        · exact ih (by omega)
        · exact ih (by omega)

theorem findLast_cases (p : Tok → Bool) (fnd : Option (List Tok × Tok × List Tok)) (pre : List Tok) (d : Int) (ts : List Tok) :
    findLast p fnd pre d ts = .throw .runtimeError ∨ ∃ o, findLast p fnd pre d ts = .ok o := by
  induction ts generalizing pre d fnd with
  | nil => rw [findLast]; split <;> simp
  | cons t ts ih =>
    rw [findLast]
    split
    · exact ih _ _ _
    · split
      · exact ih _ _ _
      · split
        · exact ih _ _ _
        · exact ih _ _ _

/-- What `findLast` found. -/
theorem findLast_inv {p : Tok → Bool} {fnd o : Option (List Tok × Tok × List Tok)} {pre : List Tok} {d : Int} {ts : List Tok}
    (h : findLast p fnd pre d ts = .ok o) :
    d + depth ts = 0 ∧ ((o = fnd ∧ Absent p d ts) ∨
      ∃ l t r, o = some (pre ++ l, t, r) ∧ ts = l ++ t :: r ∧ Plain t ∧ p t = true ∧ d + depth l = 0 ∧ Absent p 0 r) := by
  induction ts generalizing pre d fnd with
  | nil =>
    rw [findLast] at h
    split at h
    · cases h
    · injection h with h
      exact ⟨by simp; omega, .inl ⟨h.symm, fun l t r e => by cases l <;> cases e⟩⟩
  | cons u ts ih =>
    have key : ∀ {fnd' d'}, d' = d + u.d → findLast p fnd' (pre ++ [u]) d' ts = .ok o →
        d + depth (u :: ts) = 0 ∧ ((o = fnd' ∧ Absent p (d + u.d) ts) ∨
          ∃ l t r, o = some (pre ++ l, t, r) ∧ u :: ts = l ++ t :: r ∧ Plain t ∧ p t = true ∧ d + depth l = 0 ∧ Absent p 0 r) := by
      intro fnd' d' e hh
      subst e
      obtain ⟨k1, k2⟩ := ih hh
      refine ⟨by rw [depth_cons]; omega, ?_⟩
      rcases k2 with ⟨a, b⟩ | ⟨l, t, r, a, b, c1, c2, c3, c4⟩
      · exact .inl ⟨a, b⟩
      · exact .inr ⟨u :: l, t, r, by rw [a]; simp, by rw [b]; rfl, c1, c2, by rw [depth_cons]; omega, c4⟩
    rw [findLast] at h
    have hdd := @Tok.d.eq_1 u
    by_cases h1 : u.opens = true
    · rw [if_pos h1] at hdd h
      obtain ⟨a, b⟩ := key (by omega) h
      refine ⟨a, b.imp_left fun b => ⟨b.1, absent_cons.2 ⟨fun _ hp => ?_, b.2⟩⟩⟩
      exact absurd ((opens_iff u).1 h1) hp.1
    · rw [if_neg h1] at hdd h
      by_cases h2 : u.closes = true
      · rw [if_pos h2] at hdd h
        obtain ⟨a, b⟩ := key (by omega) h
        refine ⟨a, b.imp_left fun b => ⟨b.1, absent_cons.2 ⟨fun _ hp => ?_, b.2⟩⟩⟩
        exact absurd ((closes_iff u).1 h2) hp.2
      · rw [if_neg h2] at hdd h
        have hu : Plain u := (plain_iff u).2 ⟨by simpa using h1, by simpa using h2⟩
        by_cases h3 : d = 0 ∧ p u = true
        · rw [if_pos h3] at h
          obtain ⟨a, b⟩ := key (by omega) h
          refine ⟨a, .inr ?_⟩
          rcases b with ⟨b1, b2⟩ | b
          · refine ⟨[], u, ts, by simp [b1], rfl, hu, h3.2, by simp [h3.1], ?_⟩
            rw [hdd, h3.1] at b2
            exact b2
          · exact b
        · rw [if_neg h3] at h
          obtain ⟨a, b⟩ := key (by omega) h
          refine ⟨a, b.imp_left fun b => ⟨b.1, absent_cons.2 ⟨fun hd _ => ?_, b.2⟩⟩⟩
          cases hpu : p u
          · rfl
          · exact absurd ⟨hd, hpu⟩ h3

/-! ### `is_enclosed` -/

/-- The depth in brackets of one kind. -/
def kind (o c : Sym) (t : Tok) : Int := if t = .sym o then 1 else if t = .sym c then -1 else 0

def kdepth (o c : Sym) : List Tok → Int
  | [] => 0
  | t :: ts => kind o c t + kdepth o c ts

theorem kdepth_append (o c : Sym) (a b : List Tok) : kdepth o c (a ++ b) = kdepth o c a + kdepth o c b := by
  induction a with
  | nil => simp [kdepth]
  | cons t a ih => rw [List.cons_append, kdepth, kdepth, ih]; omega

theorem kind_plain {o c : Sym} (hp : Pair o c) {t : Tok} (h : Plain t) : kind o c t = 0 := by
  unfold kind
  rw [if_neg, if_neg]
  · rintro rfl; exact h.2 ⟨o, c, hp, rfl⟩
  · rintro rfl; exact h.1 ⟨o, c, hp, rfl⟩

theorem kdepth_nested {o c : Sym} (hp : Pair o c) {ts : List Tok} (h : Nested ts) : kdepth o c ts = 0 := by
  induction h with
  | nil => rfl
  | plain h _ ih => rw [kdepth, kind_plain hp h, ih]; rfl
  | @group o' c' a ts h _ _ ih1 ih2 =>
    rw [kdepth, kdepth_append, kdepth, ih1, ih2]
    cases hp <;> cases h <;> simp [kind]

theorem kdepth_prefix {o c : Sym} (hp : Pair o c) {ts : List Tok} (h : Nested ts) : ∀ {l r}, ts = l ++ r → 0 ≤ kdepth o c l := by
  induction h with
  | nil =>
    intro l r e
    obtain ⟨rfl, -⟩ := List.append_eq_nil_iff.1 e.symm
    simp [kdepth]
  | plain hpl _ ih =>
    intro l r e
    cases l with
    | nil => simp [kdepth]
    | cons t l =>
      injection e with e1 e2
      subst e1
      rw [kdepth, kind_plain hp hpl]; have := ih e2; omega
  | @group o' c' a ts hg h1 h2 ih1 ih2 =>
    intro l r e
    have hk : 0 ≤ kind o c (.sym o') := by cases hp <;> cases hg <;> simp [kind]
    have hk2 : kind o c (.sym o') + kind o c (.sym c') = 0 := by cases hp <;> cases hg <;> simp [kind]
    cases l with
    | nil => simp [kdepth]
    | cons t l =>
      injection e with e1 e2
      subst e1
      rw [kdepth]
      rcases List.append_eq_append_iff.1 e2 with ⟨m, rfl, e3⟩ | ⟨m, e3, e4⟩
      · cases m with
        | nil => have := kdepth_nested hp h1; simp [this]; omega
        | cons u m =>
          injection e3 with e3 e4
          subst e3
          have := ih2 e4
          rw [kdepth_append, kdepth, kdepth_nested hp h1]; omega
      · have := ih1 e3; omega

theorem enclosedLoop_cons (o c : Sym) (d : Int) (t : Tok) (ts : List Tok) :
    enclosedLoop o c d (t :: ts) =
      if d + kind o c t = 0 ∧ ts ≠ [] then .ok false else enclosedLoop o c (d + kind o c t) ts := by
  rw [enclosedLoop]
  unfold kind
  by_cases h : t = .sym o
  · simp only [if_pos h]
  · simp only [if_neg h]
    by_cases h2 : t = .sym c
    · simp only [if_pos h2]; rfl
    · simp only [if_neg h2, Int.add_zero]

/-- Brackets that close before the end do not enclose. -/
theorem enclosedLoop_false {o c : Sym} {l r : List Tok} {d : Int} (hl : l ≠ []) (hr : r ≠ []) (h : d + kdepth o c l = 0) :
    enclosedLoop o c d (l ++ r) = .ok false := by
  induction l generalizing d with
  | nil => exact absurd rfl hl
  | cons t l ih =>
    rw [kdepth] at h
    rw [List.cons_append, enclosedLoop_cons]
    split
    · rfl
    · next hn =>
      have : l ≠ [] := by
        rintro rfl
        exact hn ⟨by simpa [kdepth] using h, by simpa using hr⟩
      exact ih this (by omega)

theorem isEnclosed_false {o c : Sym} (hp : Pair o c) {l r : List Tok} (hl : Nested l) (hl0 : l ≠ []) (hr : r ≠ []) :
    isEnclosed o c (l ++ r) = .ok false := by
  unfold isEnclosed
  split
  · rfl
  · exact enclosedLoop_false hl0 hr (by rw [kdepth_nested hp hl]; rfl)

theorem isEnclosed_head {o c : Sym} {t : Tok} (ts : List Tok) (h : t ≠ .sym o) : isEnclosed o c (t :: ts) = .ok false := by
  unfold isEnclosed
  rw [if_pos]
  left
  simpa using h

theorem enclosedLoop_true {o c : Sym} (hp : Pair o c) {a l r : List Tok} (ha : Nested a) (e : a = l ++ r) :
    enclosedLoop o c (1 + kdepth o c l) (r ++ [.sym c]) = .ok true := by
  induction r generalizing l with
  | nil =>
    have : kdepth o c l = 0 := by rw [← kdepth_nested hp ha, e]; simp
    rw [this, List.nil_append, enclosedLoop_cons]
    have : kind o c (.sym c) = -1 := by cases hp <;> rfl
    rw [this, if_neg (by simp)]
    rfl
  | cons t r ih =>
    rw [List.cons_append, enclosedLoop_cons, if_neg]
    · have := ih (l := l ++ [t]) (by rw [e]; simp)
      rw [kdepth_append] at this
      simp only [kdepth, Int.add_zero] at this
      rw [Int.add_assoc]; exact this
    · rintro ⟨h, -⟩
      have := kdepth_prefix hp ha (l := l ++ [t]) (r := r) (by rw [e]; simp)
      rw [kdepth_append] at this
      simp only [kdepth, Int.add_zero] at this
      omega

theorem isEnclosed_true {o c : Sym} (hp : Pair o c) {a : List Tok} (ha : Nested a) :
    isEnclosed o c (.sym o :: (a ++ [.sym c])) = .ok true := by
  unfold isEnclosed
  have hl : (Tok.sym o :: (a ++ [Tok.sym c])).getLast? = some (Tok.sym c) := by
    rw [← List.cons_append, List.getLast?_concat]
  rw [if_neg (by rw [hl]; simp), enclosedLoop_cons, if_neg]
  · have := enclosedLoop_true hp ha (l := []) (r := a) rfl
    have hk : kind o c (.sym o) = 1 := by cases hp <;> rfl
    rw [hk, Int.zero_add]
    exact this
  · have hk : kind o c (.sym o) = 1 := by cases hp <;> rfl
    rw [hk]; simp

theorem isEnclosed_cases (o c : Sym) (ts : List Tok) :
    isEnclosed o c ts = .throw .runtimeError ∨ ∃ b, isEnclosed o c ts = .ok b := by
  have : ∀ d, enclosedLoop o c d ts = .throw .runtimeError ∨ ∃ b, enclosedLoop o c d ts = .ok b := by
    induction ts with
    | nil => intro d; rw [enclosedLoop]; split <;> simp
    | cons t ts ih =>
      intro d
      rw [enclosedLoop_cons]; split
      · simp
      · exact ih _
  unfold isEnclosed
  split
  · simp
  · exact this 0

theorem enclosedLoop_inv {o c : Sym} {d : Int} {l r : List Tok} (h : enclosedLoop o c d (l ++ r) = .ok true) (hl : l ≠ []) (hr : r ≠ []) :
    d + kdepth o c l ≠ 0 := by
  intro e
  rw [enclosedLoop_false hl hr e] at h
  injection h with h; cases h

/-- What is enclosed in brackets. -/
theorem isEnclosed_inv {o c : Sym} (hp : Pair o c) {ts : List Tok} (h : isEnclosed o c ts = .ok true) :
    ∃ a, ts = .sym o :: (a ++ [.sym c]) ∧ (Nested ts → Nested a) := by
  unfold isEnclosed at h
  split at h
  · injection h with h; cases h
  next hn =>
    push Not at hn
    obtain ⟨h1, h2⟩ := hn
    have hoc : o ≠ c := by cases hp <;> decide
    cases ts with
    | nil => cases h1
    | cons t ts =>
      have ht : t = .sym o := by simpa using h1
      subst ht
      have hts : ts ≠ [] := by
        rintro rfl
        have := by simpa using h2
        exact hoc this
      have hlast : ts.getLast? = some (.sym c) := by
        cases ts with
        | nil => exact absurd rfl hts
        | cons u us => rw [List.getLast?_cons_cons] at h2; exact h2
      obtain ⟨a, rfl⟩ : ∃ a, ts = a ++ [.sym c] := by
        refine ⟨ts.dropLast, ?_⟩
        have := List.dropLast_append_getLast? _ hlast
        exact this.symm
      refine ⟨a, rfl, fun hn => ?_⟩
      generalize hw : Tok.sym o :: (a ++ [Tok.sym c]) = w at hn
      cases hn with
      | nil => cases hw
      | plain h3 _ =>
        injection hw with e _
        exact absurd ⟨o, c, hp, e.symm⟩ h3.1
      | @group o' c' a' ts' hg ha' hts' =>
        injection hw with e1 e2
        have e1' : o = o' := by simpa using e1
        subst e1'
        have e3 : c' = c := by cases hp <;> cases hg <;> rfl
        subst e3
        by_cases hb : ts' = []
        · subst hb
          have := List.append_inj' e2 rfl
          rw [this.1]; exact ha'
        · exfalso
          have : Tok.sym o :: (a ++ [Tok.sym c']) = (Tok.sym o :: (a' ++ [Tok.sym c'])) ++ ts' := by rw [e2]; simp
          rw [this] at h
          refine enclosedLoop_inv h (by simp) hb ?_
          have := kdepth_nested hp (nested_group hp ha')
          omega

end Ringing.Siril
