import Verif.Props.MethodSet
import Verif.Props.LibraryName
import Verif.Props.MethodName2

/-! C65: libraries in the MicroSiril format. -/
namespace Ringing.Lib
open Spec

/-! ### Numbers -/

theorem leadingInt_unique {s : Str} {v w : Int} (h : LeadingInt s v) (h' : LeadingInt s w) : v = w := by
  obtain ⟨a, sg, ds, r, e, ha, hn, hd, hr, hv, -⟩ := h
  obtain ⟨a', sg', ds', r', e', ha', hn', hd', hr', hv', -⟩ := h'
  have k1 : ∀ {a t : Str}, (∀ c ∈ a, Space c) → (∀ c, t.head? = some c → ¬ Space c) → (a ++ t).dropWhile Bell.isSpace = t := by
    intro a t h1 h2
    refine (takeWhile_split (fun c hc => isSpace_iff.2 (h1 c hc)) fun c hc => ?_).2
    have := h2 c hc; rw [← isSpace_iff] at this; simpa using this
  have k2 : ∀ {d t : Str}, (∀ c ∈ d, Digit c) → (∀ c, t.head? = some c → ¬ Digit c) → (d ++ t).takeWhile Bell.isDigit = d := by
    intro a t h1 h2
    refine (takeWhile_split (fun c hc => isDigit_iff.2 (h1 c hc)) fun c hc => ?_).1
    have := h2 c hc; rw [← isDigit_iff] at this; simpa using this
  have e1 : sg ++ (ds ++ r) = sg' ++ (ds' ++ r') := by
    rw [← k1 ha hn, ← e, e', k1 ha' hn']
  have hds : ds ++ r = ds' ++ r' → ds = ds' := fun e => by rw [← k2 hd hr, e, k2 hd' hr']
  rcases hv with ⟨rfl, hs, rfl⟩ | ⟨rfl, rfl⟩ | ⟨rfl, rfl⟩ <;> rcases hv' with ⟨rfl, hs', rfl⟩ | ⟨rfl, rfl⟩ | ⟨rfl, rfl⟩
  · rw [hds (by simpa using e1)]
  · exact absurd rfl (hs '+' (by rw [show ds ++ r = _ from e1]; rfl)).1
  · exact absurd rfl (hs '-' (by rw [show ds ++ r = _ from e1]; rfl)).2
  · exact absurd rfl (hs' '+' (by rw [← show _ = ds' ++ r' from e1]; rfl)).1
  · rw [hds (by simpa using e1)]
  · simp at e1
  · exact absurd rfl (hs' '-' (by rw [← show _ = ds' ++ r' from e1]; rfl)).2
  · simp at e1
  · rw [hds (by simpa using e1)]

theorem atoi_spec {s : Str} {v : Int} (h : LeadingInt s v) : atoi (cStr s) = .ok v := by
  obtain ⟨a, sg, ds, r, rfl, ha, hn, hd, hr, hv, h1, h2⟩ := h
  have hz : ∀ {p : Str}, '\x00' ∉ p → ∀ t, cStr (p ++ t) = p ++ cStr t := by
    intro p hp t
    unfold cStr
    rw [List.takeWhile_append_of_pos]
    intro c hc; simp; rintro rfl; exact hp hc
  have z1 : '\x00' ∉ a := fun hc => by have := ha _ hc; revert this; unfold Space; decide
  have z3 : '\x00' ∉ ds := fun hc => by have := hd _ hc; revert this; unfold Digit; decide
  have z2 : '\x00' ∉ sg := by rcases hv with ⟨rfl, -⟩ | ⟨rfl, -⟩ | ⟨rfl, -⟩ <;> simp
  have hhd : ∀ c, (cStr r).head? = some c → r.head? = some c := by
    intro c hc
    cases r with
    | nil => cases hc
    | cons x r =>
      unfold cStr at hc
      rw [List.takeWhile_cons] at hc
      split at hc
      · exact hc
      · cases hc
  rw [hz z1, hz z2, hz z3]
  have e1 : (a ++ (sg ++ (ds ++ cStr r))).dropWhile Bell.isSpace = sg ++ (ds ++ cStr r) := by
    refine (takeWhile_split (fun c hc => isSpace_iff.2 (ha c hc)) fun c hc => ?_).2
    have : (sg ++ (ds ++ r)).head? = some c := by
      rcases hv with ⟨rfl, -⟩ | ⟨rfl, -⟩ | ⟨rfl, -⟩
      · cases ds with
        | nil => exact hhd c hc
        | cons x ds => exact hc
      · exact hc
      · exact hc
    have := hn c this; rw [← isSpace_iff] at this; simpa using this
  have e2 : (ds ++ cStr r).takeWhile Bell.isDigit = ds := by
    refine (takeWhile_split (fun c hc => isDigit_iff.2 (hd c hc)) fun c hc => ?_).1
    have := hr c (hhd c hc); rw [← isDigit_iff] at this; simpa using this
  unfold atoi
  rw [e1]
  rcases hv with ⟨rfl, hs, rfl⟩ | ⟨rfl, rfl⟩ | ⟨rfl, rfl⟩
  · have hs' : ∀ c, (ds ++ cStr r).head? = some c → c ≠ '+' ∧ c ≠ '-' := by
      intro c hc
      apply hs c
      cases ds with
      | nil => exact hhd c hc
      | cons x ds => exact hc
    have n1 : ¬ (ds ++ cStr r).head? = some '-' := fun h => (hs' _ h).2 rfl
    have n2 : ¬ (ds ++ cStr r).head? = some '+' := fun h => (hs' _ h).1 rfl
    simp only [List.nil_append, n1, n2, or_self, if_false, e2, digitsValue_eq]
    rw [if_neg (by omega)]
  · simp only [List.cons_append, List.nil_append, List.head?_cons, List.tail_cons, Option.some.injEq, or_true, if_true, e2, digitsValue_eq]
    have hne : ¬ ('+' : Char) = '-' := by decide
    simp only [hne, if_false]
    rw [if_neg (by omega)]
  · simp only [List.cons_append, List.nil_append, List.head?_cons, List.tail_cons, true_or, if_true, e2, digitsValue_eq]
    rw [if_neg (by omega)]

theorem isAlpha_iff {c : Char} : isAlpha c = true ↔ Letter c := by simp [isAlpha, Letter]

theorem header_split {line a rest : Str} {letters : Str} (e : line = a ++ ' ' :: (letters ++ rest)) (ha : ' ' ∉ a) (hl : ∀ c ∈ letters, Letter c)
    (hr : ∀ c, rest.head? = some c → ¬ Letter c) : findFrom (· = ' ') line 0 = some a.length ∧ (line.drop (a.length + 1)).dropWhile isAlpha = rest := by
  subst e
  constructor
  · exact findFrom_split0 (by intro x hx; simp; rintro rfl; exact ha hx) (by simp)
  · have : (a ++ ' ' :: (letters ++ rest)).drop (a.length + 1) = letters ++ rest := by
      rw [List.append_cons, show a.length + 1 = (a ++ [' ']).length by simp, List.drop_left]
    rw [this]
    refine (takeWhile_split (fun c hc => isAlpha_iff.2 (hl c hc)) fun c hc => ?_).2
    have := hr c hc; rw [← isAlpha_iff] at this; simpa using this

theorem header_none {line : Str} (h : ' ' ∉ line) : findFrom (· = ' ') line 0 = none := by
  rw [findFrom_none]; intro c hc; simp at hc ⊢; rintro rfl; exact h hc

theorem header_spec {e : MsEntry} {b' : Int} (h : HeaderBells e.linebuf e.b b') : msHeader e = .ok { e with b := b' } := by
  unfold msHeader
  rcases h with ⟨h, rfl⟩ | ⟨a, letters, rest, h1, h2, h3, h4, h5⟩
  · rw [header_none h]
  · obtain ⟨k1, k2⟩ := header_split h1 h2 h3 h4
    rw [k1]
    dsimp only
    rw [k2]
    rcases h5 with ⟨rfl, rfl⟩ | ⟨h5, h6⟩
    · rw [if_neg (by simp)]
    · rw [if_pos h5, atoi_spec h6]; rfl

theorem header_unique {line : Str} {b x y : Int} (h : HeaderBells line b x) (h' : HeaderBells line b y) : x = y := by
  rcases h with ⟨h, rfl⟩ | ⟨a, letters, rest, h1, h2, h3, h4, h5⟩
  · rcases h' with ⟨h', rfl⟩ | ⟨a, letters, rest, h1, -⟩
    · rfl
    · exact absurd (by rw [h1]; simp) h
  · obtain ⟨k1, k2⟩ := header_split h1 h2 h3 h4
    rcases h' with ⟨h', rfl⟩ | ⟨a', letters', rest', h1', h2', h3', h4', h5'⟩
    · exact absurd (by rw [h1]; simp) h'
    · obtain ⟨k1', k2'⟩ := header_split h1' h2' h3' h4'
      rw [k1] at k1'
      injection k1' with k1'
      rw [← k1', k2] at k2'
      subst k2'
      rcases h5 with ⟨rfl, rfl⟩ | ⟨h5, h6⟩
      · rcases h5' with ⟨-, rfl⟩ | ⟨h, -⟩
        · rfl
        · exact absurd rfl h
      · rcases h5' with ⟨h, -⟩ | ⟨-, h6'⟩
        · exact absurd h h5
        · exact leadingInt_unique h6 h6'

theorem three_unique {a b c a' b' c' : Str} (ha : ' ' ∉ a) (hb : ' ' ∉ b) (ha' : ' ' ∉ a') (hb' : ' ' ∉ b')
    (e : a ++ ' ' :: (b ++ ' ' :: c) = a' ++ ' ' :: (b' ++ ' ' :: c')) : a = a' ∧ b = b' ∧ c = c' := by
  have key : ∀ {a a' t t' : Str}, ' ' ∉ a → ' ' ∉ a' → a ++ ' ' :: t = a' ++ ' ' :: t' → a = a' ∧ t = t' := by
    intro a
    induction a with
    | nil =>
      intro a' t t' _ h' e
      cases a' with
      | nil => exact ⟨rfl, by simpa using e⟩
      | cons x a' => simp at e; exact absurd (by rw [← e.1]; simp) h'
    | cons x a ih =>
      intro a' t t' h h' e
      cases a' with
      | nil => simp at e; exact absurd (by rw [e.1]; simp) h
      | cons y a' =>
        simp only [List.cons_append, List.cons.injEq] at e
        obtain ⟨r1, r2⟩ := ih (fun hc => h (by simp [hc])) (fun hc => h' (by simp [hc])) e.2
        exact ⟨by rw [e.1, r1], r2⟩
  obtain ⟨h1, h2⟩ := key ha ha' e
  obtain ⟨h3, h4⟩ := key hb hb' h2
  exact ⟨h1, h3, h4⟩

theorem two_spaces {a b c : Str} (ha : ' ' ∉ a) (hb : ' ' ∉ b) (hc : ' ' ∉ c) : (a ++ ' ' :: (b ++ ' ' :: c)).count ' ' = 2 := by
  simp [List.count_append, List.count_eq_zero_of_not_mem ha, List.count_eq_zero_of_not_mem hb, List.count_eq_zero_of_not_mem hc]

/-- C65: a text has at most one list of entries. -/
theorem C65_unique {b : Int} {ls : List Str} {es es' : List (Int × Str × Str × Str)} (h : MsEntries b ls es) (h' : MsEntries b ls es') : es = es' := by
  induction h generalizing es' with
  | nil => cases h'; rfl
  | blank _ ih =>
    cases h' with
    | blank h => exact ih h
    | header h => cases h
    | stop h => exact absurd rfl h
    | entry e => simp at e
  | header h1 h2 _ ih =>
    cases h' with
    | blank h => cases h1
    | header h h3 h4 => rw [header_unique h2 h3] at ih; exact ih h4
    | stop _ h => exact absurd h1 h
    | entry _ _ _ _ h => exact absurd h1 h
  | stop h1 h2 h3 =>
    cases h' with
    | blank h => exact absurd rfl h1
    | header h => exact absurd h h2
    | stop => rfl
    | entry e k1 k2 k3 k4 k5 =>
      subst e
      rcases h3 with h3 | h3
      · exact absurd h3 k5
      · exact absurd (two_spaces k1 k2 k3) h3
  | entry e k1 k2 k3 k4 k5 _ ih =>
    cases h' with
    | blank h => simp at e
    | header h => exact absurd h k4
    | stop _ _ h3 =>
      subst e
      rcases h3 with h3 | h3
      · exact absurd h3 k5
      · exact absurd (two_spaces k1 k2 k3) h3
    | entry e' q1 q2 q3 q4 q5 q6 =>
      obtain ⟨rfl, rfl, rfl⟩ := three_unique k1 k2 q1 q2 (e.symm.trans e')
      rw [ih q6]

theorem exists_three : ∀ {l : Str}, l.count ' ' = 2 → ∃ a b c, l = a ++ ' ' :: (b ++ ' ' :: c) ∧ ' ' ∉ a ∧ ' ' ∉ b ∧ ' ' ∉ c := by
  have one : ∀ {l : Str} {n : Nat}, l.count ' ' = n + 1 → ∃ a t, l = a ++ ' ' :: t ∧ ' ' ∉ a ∧ t.count ' ' = n := by
    intro l n h
    rcases split_first (fun c => c ≠ ' ') l with h' | ⟨a, c, b, rfl, h1, h2⟩
    · rw [List.count_eq_zero_of_not_mem (fun hc => h' _ hc rfl)] at h; omega
    · simp only [ne_eq, not_not] at h2
      subst h2
      have hna : ' ' ∉ a := fun hc => h1 _ hc rfl
      refine ⟨a, b, rfl, hna, ?_⟩
      rw [List.count_append, List.count_eq_zero_of_not_mem hna, List.count_cons_self] at h
      omega
  intro l h
  obtain ⟨a, t, rfl, h1, h2⟩ := one h
  obtain ⟨b, c, rfl, h3, h4⟩ := one h2
  exact ⟨a, b, c, rfl, h1, h3, List.count_eq_zero.1 h4⟩

/-- C65: every text has one, unless the number in a header is too large. -/
theorem C65_total (ls : List Str) (h : ∀ l ∈ ls, l.head? = some '*' → ∀ b, ∃ b', HeaderBells l b b') (b : Int) : ∃ es, MsEntries b ls es := by
  induction ls generalizing b with
  | nil => exact ⟨[], .nil⟩
  | cons l ls ih =>
    have ih := ih fun l hl => h l (by simp [hl])
    by_cases h0 : l = []
    · subst h0; obtain ⟨es, he⟩ := ih b; exact ⟨es, .blank he⟩
    by_cases h1 : l.head? = some '*'
    · obtain ⟨b', hb'⟩ := h l (by simp) h1 b
      obtain ⟨es, he⟩ := ih b'; exact ⟨es, .header h1 hb' he⟩
    by_cases h2 : CCLine l ∨ l.count ' ' ≠ 2
    · exact ⟨[], .stop h0 h1 h2⟩
    · simp only [not_or, not_not] at h2
      obtain ⟨a, c, p, e, k1, k2, k3⟩ := exists_three h2.2
      obtain ⟨es, he⟩ := ih b
      exact ⟨_, .entry e k1 k2 k3 h1 h2.1 he⟩

theorem isSome_findSub {t : Str} : ∀ (s : Str) (k : Nat), (findSub t s k).isSome = true ↔ t <:+: s
  | [], k => by
    unfold findSub
    by_cases h : t = []
    · subst h; simp
    · rw [if_neg h]; simpa using h
  | c :: cs, k => by
    unfold findSub
    by_cases h : t.isPrefixOf (c :: cs) = true
    · rw [if_pos h]; simp; exact (List.isPrefixOf_iff_prefix.1 h).isInfix
    · rw [if_neg h, isSome_findSub cs (k + 1), List.infix_cons_iff]
      rw [List.isPrefixOf_iff_prefix] at h
      tauto

/-- What an entry object holds. -/
def MsHolds (e : MsEntry) (x : Int × Str × Str × Str) : Prop :=
  e.b = x.1 ∧ e.linebuf = x.2.1 ++ ' ' :: (x.2.2.1 ++ ' ' :: x.2.2.2) ∧ ' ' ∉ x.2.1 ∧ ' ' ∉ x.2.2.1 ∧ ' ' ∉ x.2.2.2

theorem msRead_spec {b : Int} {ls : List Str} {es : List (Int × Str × Str × Str)} (h : MsEntries b ls es) :
    ∀ (e : MsEntry) (s : IStream) (n : Nat), e.b = b → (e.linebuf.head? = some '*' → ∃ e', msHeader e = .ok e') → StreamAt s ls → ls.length + 2 ≤ n →
    (es = [] ∧ ∃ e' s', msRead n e s = .ok (false, e', s')) ∨
    (∃ x es' ls2 e' s', es = x :: es' ∧ msRead n e s = .ok (true, e', s') ∧ MsHolds e' x ∧ StreamAt s' ls2 ∧ MsEntries e'.b ls2 es' ∧
      e'.linebuf.head? ≠ some '*') := by
  induction h with
  | nil =>
    intro e s n hb hh hs hn
    left
    refine ⟨rfl, ?_⟩
    obtain ⟨k, rfl⟩ : ∃ k, n = k + 2 := ⟨n - 2, by simp at hn; omega⟩
    obtain ⟨s', l, h1, h2, h3, -⟩ := getline_nil hs e.linebuf
    have hf : ∀ k e, msRead (k + 1) e s' = .ok (false, e, s') := by intro k e; rw [msRead, if_neg (by rw [h2]; simp)]
    rw [msRead, if_pos hs.ok, h1]
    dsimp only
    by_cases c1 : l.head? = some '*'
    · rw [if_pos c1]
      have hl : l = e.linebuf := by
        rcases h3 with rfl | rfl
        · cases c1
        · rfl
      subst hl
      obtain ⟨e', he'⟩ := hh c1
      rw [he', Out.ok_bind, hf]
      exact ⟨_, _, rfl⟩
    · rw [if_neg c1]
      split
      · exact ⟨_, _, rfl⟩
      · split
        · split
          · exact ⟨_, _, rfl⟩
          · rw [h2]; exact ⟨_, _, rfl⟩
        · rw [hf]; exact ⟨_, _, rfl⟩
  | @blank b ls es _ ih =>
    intro e s n hb hh hs hn
    obtain ⟨k, rfl⟩ : ∃ k, n = k + 1 := ⟨n - 1, by simp at hn; omega⟩
    obtain ⟨s', h1, h2⟩ := getline_cons hs e.linebuf
    have hstep : msRead (k + 1) e s = msRead k { e with linebuf := [] } s' := by
      rw [msRead, if_pos hs.ok, h1]
      dsimp only
      rw [if_neg (by simp), if_neg (by decide), if_neg (by simp)]
    rw [hstep]
    exact ih _ _ _ hb (by simp) h2 (by simp at hn ⊢; omega)
  | @header b b' l ls es q1 q2 _ ih =>
    intro e s n hb hh hs hn
    obtain ⟨k, rfl⟩ : ∃ k, n = k + 1 := ⟨n - 1, by simp at hn; omega⟩
    obtain ⟨s', h1, h2⟩ := getline_cons hs e.linebuf
    subst hb
    have hstep : msRead (k + 1) e s = msRead k { e with linebuf := l, b := b' } s' := by
      rw [msRead, if_pos hs.ok, h1]
      dsimp only
      rw [if_pos q1, header_spec (e := { e with linebuf := l }) (b' := b') q2]; rfl
    rw [hstep]
    refine ih _ _ _ rfl (fun _ => ?_) h2 (by simp at hn ⊢; omega)
    unfold msHeader
    rcases q2 with ⟨h, rfl⟩ | ⟨a, letters, rest, r1, r2, r3, r4, r5⟩
    · rw [header_none h]; exact ⟨_, rfl⟩
    · obtain ⟨k1, k2⟩ := header_split r1 r2 r3 r4
      dsimp only
      rw [k1]
      dsimp only
      rw [k2]
      rcases r5 with ⟨rfl, rfl⟩ | ⟨r5, r6⟩
      · rw [if_neg (by simp)]; exact ⟨_, rfl⟩
      · rw [if_pos r5, atoi_spec r6]; exact ⟨_, rfl⟩
  | @stop b l ls q1 q2 q3 =>
    intro e s n hb hh hs hn
    left
    refine ⟨rfl, ?_⟩
    obtain ⟨k, rfl⟩ : ∃ k, n = k + 1 := ⟨n - 1, by simp at hn; omega⟩
    obtain ⟨s', h1, h2⟩ := getline_cons hs e.linebuf
    rw [msRead, if_pos hs.ok, h1]
    dsimp only
    rw [if_neg q2]
    simp only [isSome_findSub]
    by_cases hc : CCLine l
    · have hc' : "Name".toList <:+: l ∧ "No.".toList <:+: l := hc
      rw [if_pos hc']; exact ⟨_, _, rfl⟩
    · have hc' : ¬ ("Name".toList <:+: l ∧ "No.".toList <:+: l) := hc
      rw [if_neg hc', if_pos (List.length_pos_of_ne_nil q1), if_pos (q3.resolve_left hc)]; exact ⟨_, _, rfl⟩
  | @entry b l name code pn ls es q0 q1 q2 q3 q4 q5 q6 ih =>
    intro e s n hb hh hs hn
    right
    obtain ⟨k, rfl⟩ : ∃ k, n = k + 1 := ⟨n - 1, by simp at hn; omega⟩
    obtain ⟨s', h1, h2⟩ := getline_cons hs e.linebuf
    refine ⟨_, es, ls, { e with linebuf := l }, s', rfl, ?_, ⟨hb, q0, q1, q2, q3⟩, h2, by rw [hb]; exact q6, q4⟩
    rw [msRead, if_pos hs.ok, h1]
    dsimp only
    rw [if_neg q4]
    simp only [isSome_findSub]
    have q5' : ¬ ("Name".toList <:+: l ∧ "No.".toList <:+: l) := q5
    rw [if_neg q5', if_pos (by rw [q0]; simp), if_neg (by rw [q0, two_spaces q1 q2 q3]; simp), h2.ok]

/-- What the entry of a line shows. -/
def MsShows (v : View) (x : Int × Str × Str × Str) : Prop :=
  v.bells = x.1 ∧ v.name = .ok x.2.1 ∧ v.baseName = .ok x.2.1 ∧ (∃ full, MsNotation x.2.2.1 x.2.2.2 full ∧ v.pn = .ok full) ∧
    v.payload = none ∧ v.own = none

theorem msNotation_unique {code pn full full' : Str} (h : MsNotation code pn full) (h' : MsNotation code pn full') : full = full' := by
  obtain ⟨body, sp, e, h1, h2, h3⟩ := h
  obtain ⟨body', sp', e', h1', h2', h3'⟩ := h'
  have key : ∀ {body sp : Str}, (∀ c ∈ sp, Space c) → (∀ c, body.getLast? = some c → ¬ Space c) →
      ((body ++ sp).reverse.dropWhile Bell.isSpace).reverse = body := by
    intro body sp h1 h2
    rw [List.reverse_append]
    rw [(takeWhile_split (a := sp.reverse) (b := body.reverse) (fun c hc => isSpace_iff.2 (h1 c (by simpa using hc))) fun c hc => by
      have := h2 c (by simpa using hc); rw [← isSpace_iff] at this; simpa using this).2]
    simp
  have hb : body = body' := by rw [← key h1 h2, ← e, e', key h1' h2']
  subst hb
  rcases h3 with ⟨a1, rfl⟩ | ⟨a1, a2⟩ <;> rcases h3' with ⟨b1, rfl⟩ | ⟨b1, b2⟩
  · rfl
  · exact absurd a1 b1
  · exact absurd b1 a1
  · rcases a2 with ⟨p, rfl, rfl⟩ | ⟨a2, a3, rfl⟩ | ⟨a2, a3, rfl⟩ <;> rcases b2 with ⟨q, b2, rfl⟩ | ⟨b2, b3, rfl⟩ | ⟨b2, b3, rfl⟩
    · rw [List.append_inj_left' b2 rfl]
    · simp at b2
    · simp at b2
    · subst b2; simp at a2
    · rfl
    · obtain ⟨c, c1, c2⟩ := a3; exact absurd c2 (b3 c c1)
    · subst b2; simp at a2
    · obtain ⟨c, c1, c2⟩ := b3; exact absurd c2 (a3 c c1)
    · rfl

theorem ms_shows {e : MsEntry} {x : Int × Str × Str × Str} (h : MsHolds e x) : MsShows (ms.view e) x := by
  obtain ⟨b, name, code, pn⟩ := x
  obtain ⟨h1, h2, h3, h4, h5⟩ := h
  dsimp only at h1 h2 h3 h4 h5
  have n3 : ∀ y ∈ name, decide (y = ' ') = false := by intro y hy; simp; rintro rfl; exact h3 hy
  have n4 : ∀ y ∈ code, decide (y = ' ') = false := by intro y hy; simp; rintro rfl; exact h4 hy
  have f1 : findFrom (· = ' ') e.linebuf 0 = some name.length := by rw [h2]; exact findFrom_split0 n3 (by simp)
  have e2 : e.linebuf = (name ++ [' ']) ++ code ++ ' ' :: pn := by rw [h2]; simp
  have f2 : findFrom (· = ' ') e.linebuf (name.length + 1) = some (name.length + 1 + code.length) := by
    rw [e2]
    have := findFrom_split (p := (· = ' ')) (a := code) (b := pn) (c := ' ') n4 (by simp) (name ++ [' '])
    simpa using this
  have hname : e.name = name := by
    unfold MsEntry.name
    rw [f1]; dsimp only; rw [h2, List.take_left]
  refine ⟨h1, ?_, ?_, ?_, rfl, rfl⟩
  · show Out.ok e.name = _; rw [hname]
  · show Out.ok e.name = _; rw [hname]
  · show ∃ full, _ ∧ e.pn = _
    unfold MsEntry.pn
    rw [f1]; dsimp only; rw [f2]; dsimp only
    have d1 : (e.linebuf.drop (name.length + 1)).take (name.length + 1 + code.length - name.length - 1) = code := by
      rw [e2, List.append_assoc, show name.length + 1 = (name ++ [' ']).length by simp, List.drop_left]
      rw [show (name ++ [' ']).length + code.length - name.length - 1 = code.length by simp; omega, List.take_left]
    have d2 : e.linebuf.drop (name.length + 1 + code.length + 1) = pn := by
      have : e.linebuf = (name ++ [' '] ++ code ++ [' ']) ++ pn := by rw [h2]; simp
      rw [this, show name.length + 1 + code.length + 1 = (name ++ [' '] ++ code ++ [' ']).length by simp; omega, List.drop_left]
    rw [d1, d2]
    obtain ⟨body, hbody⟩ : ∃ body, body = (pn.reverse.dropWhile Bell.isSpace).reverse := ⟨_, rfl⟩
    have hsplit : pn = body ++ (pn.reverse.takeWhile Bell.isSpace).reverse := by
      rw [hbody, ← List.reverse_append, List.takeWhile_append_dropWhile, List.reverse_reverse]
    have hlast : ∀ c, body.getLast? = some c → ¬ Space c := by
      intro c hc hs
      rw [hbody, List.getLast?_reverse] at hc
      have := List.head?_dropWhile_not Bell.isSpace pn.reverse
      rw [hc] at this
      simp at this
      rw [isSpace_iff.2 hs] at this; cases this
    rw [← hbody]
    refine ⟨_, ⟨body, _, hsplit, fun c hc => isSpace_iff.1 (mem_takeWhile' (by simpa using hc)), hlast, ?_⟩, rfl⟩
    by_cases hp : body.head? = some '+'
    · left; exact ⟨hp, by rw [if_neg (by simp [hp])]⟩
    · right
      refine ⟨hp, ?_⟩
      rw [if_pos hp]
      by_cases hz : code.getLast? = some 'z'
      · left
        rw [if_pos hz]
        refine ⟨code.dropLast, ?_, rfl⟩
        have hne : code ≠ [] := by rintro rfl; cases hz
        rw [List.getLast?_eq_some_getLast hne] at hz
        injection hz with hz
        rw [← hz, List.dropLast_append_getLast]
      · right
        rw [if_neg hz]
        have hchar : ∀ c : Char, (('a' ≤ c ∧ c ≤ 'f') ∨ c = 'p' ∨ c = 'q') ↔ c ∈ ['a', 'b', 'c', 'd', 'e', 'f', 'p', 'q'] := by
          intro c
          simp only [List.mem_cons, List.not_mem_nil, or_false]
          constructor
          · rintro (⟨p1, p2⟩ | p | p)
            · have q1 : 97 ≤ c.toNat := p1
              have q2 : c.toNat ≤ 102 := p2
              have : ∀ d : Char, c.toNat = d.toNat → c = d := fun d hd => Char.toNat_inj.1 hd
              have h6 : c.toNat = 97 ∨ c.toNat = 98 ∨ c.toNat = 99 ∨ c.toNat = 100 ∨ c.toNat = 101 ∨ c.toNat = 102 := by omega
              rcases h6 with h | h | h | h | h | h
              · have := this 'a' h; tauto
              · have := this 'b' h; tauto
              · have := this 'c' h; tauto
              · have := this 'd' h; tauto
              · have := this 'e' h; tauto
              · have := this 'f' h; tauto
            · tauto
            · tauto
          · rintro (rfl | rfl | rfl | rfl | rfl | rfl | rfl | rfl) <;> decide
        cases hc : code.head? with
        | none =>
          right
          refine ⟨hz, by simp, ?_⟩
          simp only [Option.getD_none]
          rw [if_neg (by decide)]
        | some c =>
          simp only [Option.getD_some]
          by_cases hcc : ('a' ≤ c ∧ c ≤ 'f') ∨ c = 'p' ∨ c = 'q'
          · left; rw [if_pos hcc]; exact ⟨hz, ⟨c, rfl, (hchar c).1 hcc⟩, rfl⟩
          · right; rw [if_neg hcc]
            refine ⟨hz, fun d hd => ?_, rfl⟩
            injection hd with hd; subst hd
            exact fun h => hcc ((hchar _).2 h)

theorem msList_spec : ∀ (es : List (Int × Str × Str × Str)) (b : Int) (ls : List Str), MsEntries b ls es → ∀ (e : MsEntry) (l : Ms), e.b = b →
    e.linebuf.head? ≠ some '*' → StreamAt l.f ls → ∀ n, es.length < n →
    ∃ vs l', listLoop ms n e l = .ok (vs, l') ∧ List.Forall₂ MsShows vs es := by
  intro es
  induction es with
  | nil =>
    intro b ls h e l hb hh hs n hn
    obtain ⟨k, rfl⟩ : ∃ k, n = k + 1 := ⟨n - 1, by simp at hn; omega⟩
    rcases msRead_spec h e l.f (l.f.rest.length + 2) hb (fun c => absurd c hh) hs (by have := hs.length; omega) with ⟨-, e', s', h1⟩ | ⟨x, es', _, _, _, h1, -⟩
    · refine ⟨[], { l with f := s' }, ?_, .nil⟩
      have : ms.read e l = .ok (false, e', { l with f := s' }) := by
        show (msRead _ _ _ >>= _) = _; rw [h1]; rfl
      rw [listLoop, this]; rfl
    · cases h1
  | cons x es ih =>
    intro b ls h e l hb hh hs n hn
    obtain ⟨k, rfl⟩ : ∃ k, n = k + 1 := ⟨n - 1, by simp at hn; omega⟩
    rcases msRead_spec h e l.f (l.f.rest.length + 2) hb (fun c => absurd c hh) hs (by have := hs.length; omega) with ⟨h1, -⟩ | ⟨x', es', ls2, e', s', h1, h2, h3, h4, h5, h6⟩
    · cases h1
    · injection h1 with h1a h1b
      subst h1a h1b
      obtain ⟨vs, l', k1, k2⟩ := ih _ _ h5 e' { l with f := s' } rfl h6 h4 k (by simpa using hn)
      refine ⟨ms.view e' :: vs, l', ?_, .cons (ms_shows h3) k2⟩
      have : ms.read e l = .ok (true, e', { l with f := s' }) := by
        show (msRead _ _ _ >>= _) = _; rw [h2]; rfl
      rw [listLoop, this]
      simp [k1]

/-- C65: iterating over a MicroSiril library gives the entries of the lines of the file, in order, each time it is
done. -/
theorem C65_entries {l : Ms} {ls : List Str} (hl : Lines l.file ls) {es : List (Int × Str × Str × Str)} (he : MsEntries 0 ls es) {n : Nat}
    (hn : es.length < n) : ∃ vs l', list ms n l = .ok (vs, l') ∧ List.Forall₂ MsShows vs es := by
  exact msList_spec es 0 ls he _ _ rfl (by simp [ms]) (Or.inl ⟨_, rfl, hl⟩) n hn

/-! ### Methods stored in a MicroSiril library -/

/-- The flags with which a method is written: as in the library, without the last change. -/
abbrev msFlags : Nat := Method.M_SYMMETRY ||| Method.M_DASH ||| Method.M_OMIT_LH

theorem section_flags {f g : Nat} (h1 : Method.has f Method.M_DOTS = Method.has g Method.M_DOTS)
    (h2 : Method.has f Method.M_EXTERNAL = Method.has g Method.M_EXTERNAL) (h3 : Method.crossChar f = Method.crossChar g) :
    ∀ (cs : List Change) (d fi : Bool), Method.section' f cs d fi = Method.section' g cs d fi := by
  intro cs
  induction cs with
  | nil => intro d fi; rfl
  | cons c cs ih =>
    intro d fi
    unfold Method.section' Method.changeText
    rw [h1, h2, h3, ih, ih]

/-- With the last change behind it, what is written for a symmetric method is its complete place notation. -/
theorem format_complete {m : Method} (hs : Method.issymC m = .ok true) (he : m.ch.length % 2 = 0) (hl : 2 < m.ch.length) {last : Change}
    (hlast : m.ch.getLast? = some last) : ∃ body, Method.formatC m msFlags = .ok body ∧ body.head? = some '&' ∧
      Method.formatC m (Method.M_SYMMETRY ||| Method.M_DASH) =
        .ok (body ++ ',' :: Method.section' (Method.M_SYMMETRY ||| Method.M_DASH) [last] false true) := by
  have hsec : ∀ cs, Method.section' msFlags cs false true = Method.section' (Method.M_SYMMETRY ||| Method.M_DASH) cs false true := fun cs =>
    section_flags (by decide) (by decide) (by decide) cs _ _
  have hlen : m.length = m.ch.length := rfl
  have f1 : Method.formatSym m msFlags = .ok (some (m.length / 2 - 1)) := by
    unfold Method.formatSym
    rw [if_pos ⟨by decide, hl⟩, hs]; rfl
  have f2 : Method.formatSym m (Method.M_SYMMETRY ||| Method.M_DASH) = .ok (some (m.length / 2 - 1)) := by
    unfold Method.formatSym
    rw [if_pos ⟨by decide, hl⟩, hs]; rfl
  have hsym : m.length / 2 - 1 ≠ 0 := by omega
  have s0 : ∀ fl, Method.sectionC m 0 (m.length / 2 - 1 + 1) fl = .ok (Method.section' fl ((m.ch.take (m.length / 2 - 1 + 1)).drop 0) false true) := by
    intro fl
    unfold Method.sectionC
    rw [if_neg (by omega)]
  have s1 : Method.sectionC m (2 * (m.length / 2 - 1) + 1) (m.length / 2 + (m.length / 2 - 1) + 1) (Method.M_SYMMETRY ||| Method.M_DASH) =
      .ok (Method.section' (Method.M_SYMMETRY ||| Method.M_DASH) [last] false true) := by
    unfold Method.sectionC
    rw [if_neg (by omega)]
    have e1 : m.length / 2 + (m.length / 2 - 1) + 1 = m.ch.length := by omega
    have e2 : 2 * (m.length / 2 - 1) + 1 = m.ch.length - 1 := by omega
    rw [e1, e2, List.take_length]
    have hne : m.ch ≠ [] := by intro h; rw [h] at hl; simp at hl
    rw [List.drop_length_sub_one hne]
    rw [List.getLast?_eq_some_getLast hne] at hlast
    injection hlast with hlast
    rw [hlast]
  refine ⟨['&'] ++ Method.section' (Method.M_SYMMETRY ||| Method.M_DASH) ((m.ch.take (m.length / 2 - 1 + 1)).drop 0) false true, ?_, rfl, ?_⟩
  · unfold Method.formatC
    dsimp only
    rw [f1, Out.ok_bind]
    dsimp only
    rw [s0, Out.ok_bind, if_pos (by decide), if_pos hsym, hsec]
    rfl
  · unfold Method.formatC
    dsimp only
    rw [f2, Out.ok_bind]
    dsimp only
    rw [s0, Out.ok_bind, if_neg (by decide), s1, Out.ok_bind, if_pos hsym, if_neg (by omega), if_neg (by decide)]
    show Out.ok _ = _
    simp

theorem made_of_shows {v : View} {m : Method} {name code pn full : Str} (hv : MsShows v (m.b, name, code, pn))
    (hf : MsNotation code pn full) (hm : Method.ofStringC full m.b = .ok m) : v.made = .ok ⟨m, name⟩ := by
  obtain ⟨h1, h2, h3, ⟨full', h4, h5⟩, -⟩ := hv
  have := msNotation_unique hf h4
  subst this
  dsimp only at h1 h3
  unfold View.made
  rw [h5, Out.ok_bind, h3, Out.ok_bind, h1]
  show (if (m.b : Int) < 0 then Out.ub else _) = _
  rw [if_neg (by omega)]
  show (Method.ofStringC full m.b >>= _) = _
  rw [hm]; rfl

theorem code_head {o k : Nat} {seconds : Bool} (h1 : 1 ≤ k) (h2 : k < o) :
    (leadHeadCode o k seconds).getLast? ≠ some 'z' ∧ (∃ c, (leadHeadCode o k seconds).head? = some c ∧
      (c ∈ ['a', 'b', 'c', 'd', 'e', 'f', 'p', 'q'] ↔ seconds = true)) := by
  have hd : ∀ (x : Char) n, x ≠ 'z' → (x :: digits n).getLast? ≠ some 'z' := by
    intro x n hx hc
    rcases List.mem_cons.1 (List.mem_of_getLast? hc) with h | h
    · exact hx h.symm
    · have := digits_digit h
      revert this; decide
  have hd2 : ∀ (x : Char) n, x ≠ 'z' → (x :: (if n = 1 then [] else digits (n - 1))).getLast? ≠ some 'z' := by
    intro x n hx
    by_cases h : n = 1
    · rw [if_pos h]; simpa using hx
    · rw [if_neg h]; exact hd x _ hx
  unfold leadHeadCode
  dsimp only
  obtain ⟨q, hq⟩ : ∃ q, q = (if decide (o < 2 * k) = true then o - k else k) := ⟨_, rfl⟩
  have hq1 : 1 ≤ q := by rw [hq]; split <;> omega
  rw [← hq]
  clear hq
  generalize decide (o < 2 * k) = bk
  by_cases ho : o % 2 = 1
  · rw [if_pos ho]
    by_cases h3 : q ≤ 3
    · rw [if_pos h3]
      have hq3 : q = 1 ∨ q = 2 ∨ q = 3 := by omega
      rcases hq3 with rfl | rfl | rfl <;> cases bk <;> cases seconds <;>
        exact ⟨by decide, _, rfl, by decide⟩
    · rw [if_neg h3]
      cases bk <;> cases seconds <;> exact ⟨hd _ _ (by decide), _, rfl, by decide⟩
  · rw [if_neg ho]
    cases bk <;> cases seconds <;> exact ⟨hd2 _ _ (by decide), _, rfl, by decide⟩

theorem last_text {b : Nat} (h3 : 3 ≤ b) (h33 : b ≤ 33) {c : Change} (hc : IsChange c.n c.swaps) (hn : c.n = b) (seconds : Bool)
    (hp : ∀ i, IsPlace b c.swaps i ↔ i < b ∧ PlaceMade b (if seconds then [0, 1] else [0]) i) :
    Method.section' (Method.M_SYMMETRY ||| Method.M_DASH) [c] false true = [if seconds then '2' else '1'] := by
  have hok : PlacesOK b (if seconds then [0, 1] else [0]) := by
    revert b; intro b h3 h33 _ _
    have : ∀ b, b < 34 → 3 ≤ b → PlacesOK b [0, 1] ∧ PlacesOK b [0] := by unfold PlacesOK; decide +kernel
    cases seconds
    · exact (this b (by omega) h3).2
    · exact (this b (by omega) h3).1
  obtain ⟨x, hx, he⟩ := Method.eq_places (by omega) (by omega) hok hc hn
  have he := he.2 hp
  have key : ∀ b, b < 34 → 3 ≤ b → ∀ sec : Bool, ∃ x, Change.ofPlacesC b (if sec then [0, 1] else [0]) = .ok x ∧
      x.n = b ∧ Method.section' (Method.M_SYMMETRY ||| Method.M_DASH) [x] false true = [if sec then '2' else '1'] := by
    have : ∀ b, b < 34 → 3 ≤ b → ∀ sec : Bool, (match Change.ofPlacesC b (if sec then [0, 1] else [0]) with
      | .ok x => decide (x.n = b ∧ Method.section' (Method.M_SYMMETRY ||| Method.M_DASH) [x] false true = [if sec then '2' else '1'])
      | _ => false) = true := by decide +kernel
    intro b h1 h2 sec
    have := this b h1 h2 sec
    split at this
    · rename_i x hx; exact ⟨x, hx, of_decide_eq_true this⟩
    · cases this
  obtain ⟨y, h1, h2, h3'⟩ := key b (by omega) h3 seconds
  rw [hx] at h1
  injection h1 with h1
  subst h1
  have : c = x := by
    unfold Change.eq at he
    have h0 : decide (c.n = 0) = false := by simp; omega
    simp only [h0, Bool.false_or, Bool.and_eq_true, decide_eq_true_eq] at he
    cases c; cases x
    simp only [Change.mk.injEq] at *
    exact he
  rw [this]; exact h3'

/-- C65: a symmetric method written to a line as its name, its lead head code and its place notation without the
last change is the method of the entry. -/
theorem C65_roundtrip {v : View} {m : Method} {name code pn : Str} (hw : WellFormed m) (hl : 2 < m.ch.length)
    (hs : Method.issymC m = .ok true) {k : Nat} {seconds : Bool} (hk : Method.HasCode m 1 k seconds) (hc : Method.lhcodeC m = .ok code)
    (hp : Method.formatC m msFlags = .ok pn) (hv : MsShows v (m.b, name, code, pn)) : v.made = .ok ⟨m, name⟩ := by
  obtain ⟨w1, w2, w3⟩ := hw
  obtain ⟨b, e1, e2⟩ := C20_issym (m := m) (by omega) w3
  rw [hs] at e1
  injection e1 with e1
  have he := (e2.1 e1.symm).1
  have hcode := C55_code (by omega) w3 hk
  rw [hc, if_pos rfl] at hcode
  injection hcode with hcode
  obtain ⟨-, k1, k2, -, -, last, k3, k4⟩ := hk
  rw [if_pos rfl] at k3 k4
  obtain ⟨body, b1, b2, b3⟩ := format_complete hs he hl k3
  rw [hp] at b1
  injection b1 with b1
  subst b1
  obtain ⟨z1, z2⟩ := w3 last (List.mem_of_getLast? k3)
  rw [last_text (by omega) w2 z1 z2 seconds k4] at b3
  obtain ⟨g1, c, g2, g3⟩ := code_head (seconds := seconds) k1 (show k < m.b - 1 by omega)
  rw [← hcode] at g1 g2
  obtain ⟨t, t1, t2, t3⟩ := C17_roundtrip (m := m) (by omega) w3 (Method.M_SYMMETRY ||| Method.M_DASH) (Or.inr (by decide))
  rw [b3] at t1
  injection t1 with t1
  subst t1
  have hno : Method.has (Method.M_SYMMETRY ||| Method.M_DASH) Method.M_OMIT_LH = false := by decide
  rw [hno] at t2
  refine made_of_shows hv ⟨pn, [], by simp, by simp, fun c hc => (format_noblank hp c (List.mem_of_getLast? hc)).1, Or.inr ⟨by rw [b2]; decide, ?_⟩⟩ ((t3 w2).trans t2)
  cases seconds with
  | true => exact Or.inr (Or.inl ⟨g1, ⟨c, g2, g3.2 rfl⟩, rfl⟩)
  | false =>
    refine Or.inr (Or.inr ⟨g1, fun d hd => ?_, rfl⟩)
    rw [g2] at hd
    injection hd with hd
    subst hd
    exact fun h => absurd (g3.1 h) (by decide)

/-- C65: so is a symmetric method with any other last change if the code is that change and the letter z. -/
theorem C65_roundtrip_z {v : View} {m : Method} {name pn : Str} (hw : WellFormed m) (hl : 2 < m.ch.length)
    (hs : Method.issymC m = .ok true) {last : Change} (hlast : m.ch.getLast? = some last) (hp : Method.formatC m msFlags = .ok pn)
    (hv : MsShows v (m.b, name, Method.section' (Method.M_SYMMETRY ||| Method.M_DASH) [last] false true ++ ['z'], pn)) :
    v.made = .ok ⟨m, name⟩ := by
  obtain ⟨w1, w2, w3⟩ := hw
  obtain ⟨b, e1, e2⟩ := C20_issym (m := m) (by omega) w3
  rw [hs] at e1
  injection e1 with e1
  have he := (e2.1 e1.symm).1
  obtain ⟨body, b1, b2, b3⟩ := format_complete hs he hl hlast
  rw [hp] at b1
  injection b1 with b1
  subst b1
  obtain ⟨t, t1, t2, t3⟩ := C17_roundtrip (m := m) (by omega) w3 (Method.M_SYMMETRY ||| Method.M_DASH) (Or.inr (by decide))
  rw [b3] at t1
  injection t1 with t1
  subst t1
  have hno : Method.has (Method.M_SYMMETRY ||| Method.M_DASH) Method.M_OMIT_LH = false := by decide
  rw [hno] at t2
  exact made_of_shows hv ⟨pn, [], by simp, by simp, fun c hc => (format_noblank hp c (List.mem_of_getLast? hc)).1, Or.inr ⟨by rw [b2]; decide,
    Or.inl ⟨_, rfl, rfl⟩⟩⟩ ((t3 w2).trans t2)

/-- C65: and so is any method written in full with a plus sign in front, whatever the code. -/
theorem C65_roundtrip_plus {v : View} {m : Method} {name code pn : Str} (hw : WellFormed m)
    (hp : Method.formatC m (Method.M_PLUS ||| Method.M_DASH) = .ok pn) (hv : MsShows v (m.b, name, code, pn)) :
    v.made = .ok ⟨m, name⟩ := by
  obtain ⟨w1, w2, w3⟩ := hw
  obtain ⟨t, t1, t2, t3⟩ := C17_roundtrip (m := m) (by omega) w3 (Method.M_PLUS ||| Method.M_DASH) (Or.inr (by decide))
  rw [hp] at t1
  injection t1 with t1
  subst t1
  have hno : Method.has (Method.M_PLUS ||| Method.M_DASH) Method.M_OMIT_LH = false := by decide
  rw [hno] at t2
  have hhead : pn.head? = some '+' := by
    have hp' := hp
    unfold Method.formatC at hp'
    dsimp only at hp'
    have : Method.formatSym m (Method.M_PLUS ||| Method.M_DASH) = .ok none := by
      unfold Method.formatSym
      rw [if_neg (by intro h; exact absurd h.1 (by decide))]; rfl
    rw [this, Out.ok_bind] at hp'
    dsimp only at hp'
    obtain ⟨x, -, hx⟩ := Out.bind_eq_ok.1 hp'
    injection hx with hx
    rw [← hx, if_pos (by decide)]; rfl
  exact made_of_shows hv ⟨pn, [], by simp, by simp, fun c hc => (format_noblank hp c (List.mem_of_getLast? hc)).1, Or.inl ⟨hhead, rfl⟩⟩ ((t3 w2).trans t2)

/-- A library with a header, an empty line, three methods and a line that ends it. -/
def msExample : Ms := ⟨"* Minor6\n\nPlain a &-1-1-1\nFoo 16z &-1-1-1\nBar x +-1-1,2\t\nend\nBaz a &-1\n".toList, ⟨[], true, true⟩⟩

/-- Plain bob minor. -/
def plainBob6 : Method := ⟨6, [⟨6, [0, 2, 4]⟩, ⟨6, [1, 3]⟩, ⟨6, [0, 2, 4]⟩, ⟨6, [1, 3]⟩, ⟨6, [0, 2, 4]⟩, ⟨6, [1, 3]⟩, ⟨6, [0, 2, 4]⟩, ⟨6, [1, 3]⟩, ⟨6, [0, 2, 4]⟩, ⟨6, [1, 3]⟩, ⟨6, [0, 2, 4]⟩, ⟨6, [2, 4]⟩]⟩

example : (list ms 9 msExample >>= fun r => .ok (r.1.map fun v => (v.bells, v.name, v.pn))) =
    .ok [(6, .ok "Plain".toList, .ok "&-1-1-1,2".toList), (6, .ok "Foo".toList, .ok "&-1-1-1,16".toList), (6, .ok "Bar".toList, .ok "+-1-1,2".toList)] := by
  decide +kernel
example : (list ms 9 msExample >>= fun r => .ok ((r.1.map View.made).head?)) = .ok (some (.ok ⟨plainBob6, "Plain".toList⟩)) := by decide +kernel
example : WellFormed plainBob6 ∧ 2 < plainBob6.ch.length ∧ Method.issymC plainBob6 = .ok true ∧ Method.lhcodeC plainBob6 = .ok ['a'] ∧
    Method.formatC plainBob6 msFlags = .ok "&-1-1-1".toList := by
  refine ⟨?_, by decide, by decide +kernel, by decide +kernel, by decide +kernel⟩
  unfold WellFormed IsChange
  exact ⟨by decide, by decide, by decide +kernel⟩
example : MsEntries 0 ["* Minor6".toList, [], "Plain a &-1-1-1".toList, "end".toList] [(6, "Plain".toList, "a".toList, "&-1-1-1".toList)] := by
  refine .header (b' := 6) (by decide) (Or.inr ⟨['*'], "Minor".toList, ['6'], by decide, by decide, by decide, by decide, Or.inr ⟨by decide, [], [], ['6'], [], by decide, by simp, ?_, ?_, by simp, ?_, by decide, by decide⟩⟩)
    (.blank (.entry (by decide) (by decide) (by decide) (by decide) (by decide) ?_ (.stop (by decide) (by decide) (Or.inr (by decide)))))
  · simp; decide
  · simp; unfold Digit; decide
  · left; refine ⟨rfl, by simp, by decide⟩
  · unfold CCLine; decide

end Ringing.Lib
