import Verif.Lemmas.Library

/-! C60: the lightweight library format. -/
namespace Ringing.Lib
open Spec

theorem liteLine_unique {l : Str} {b1 b2 : Option Int} {p1 p2 t1 t2 : Str} (h1 : LiteLine l b1 p1 t1) (h2 : LiteLine l b2 p2 t2) :
    b1.getD 0 = b2.getD 0 ∧ p1 = p2 ∧ t1 = t2 := by
  obtain ⟨k, a1, ls, a2, a3, a4⟩ := readBells_spec h1 0 false
  obtain ⟨k', c1, ls', c2, c3, c4⟩ := readBells_spec h2 0 false
  rw [a1] at c1
  obtain rfl : k = k' := by simpa using c1
  rw [a2] at c2
  simp only [Out.ok.injEq, Prod.mk.injEq, LiteEntry.mk.injEq, true_and, and_true] at c2
  obtain ⟨e1, rfl⟩ := c2
  rw [a3] at c3
  rw [a4] at c4
  exact ⟨e1, by simpa using c3, by simpa using c4⟩

theorem liteLine_not_bad {l : Str} {b1 : Option Int} {p1 t1 : Str} (h1 : LiteLine l b1 p1 t1) : ¬ BadLine l := by
  intro h
  obtain ⟨k, a1, ls, a2, -⟩ := readBells_spec h1 0 false
  obtain ⟨k', c1, c2⟩ := readBells_bad h 0 false
  rw [a1] at c1
  obtain rfl : k = k' := by simpa using c1
  rw [a2] at c2; cases c2

theorem gap_not_line {l : Str} (h : ∀ c ∈ l, Spec.Gap c) : (∀ b p t, ¬ LiteLine l b p t) ∧ ¬ BadLine l := by
  refine ⟨fun b p t h' => ?_, fun h' => ?_⟩
  · obtain ⟨k, a1, -⟩ := readBells_spec h' 0 false
    rw [findGap_blank h] at a1; cases a1
  · obtain ⟨k, a1, -⟩ := readBells_bad h' 0 false
    rw [findGap_blank h] at a1; cases a1

theorem wanted_unique {req : Int} {b1 b2 : Option Int} (h : b1.getD 0 = b2.getD 0) {x y : Int} (hx : Wanted req b1 x) (hy : Wanted req b2 y) :
    x = y := by
  rcases hx with ⟨h1, rfl, h2⟩ | ⟨h1, rfl, h2⟩ <;> rcases hy with ⟨h3, rfl, h4⟩ | ⟨h3, rfl, h4⟩
  · simpa using h
  · exact absurd h1 h3
  · exact absurd h3 h1
  · rfl

theorem wanted_congr {req : Int} {b1 b2 : Option Int} (h : b1.getD 0 = b2.getD 0) (hx : ∃ x, Wanted req b1 x) : ∃ x, Wanted req b2 x := by
  rw [wanted_iff] at hx ⊢; rwa [h] at hx

/-- C60: the entries of a list of lines are determined by the lines. -/
theorem C60_unique {req : Int} {ls : List Str} {es es' : List (Int × Str × Str)} (h : LiteEntries req ls es)
    (h' : LiteEntries req ls es') : es = es' := by
  induction h generalizing es' with
  | nil => cases h'; rfl
  | blank h1 _ ih =>
    cases h' with
    | blank _ h2 => exact ih h2
    | other h2 => exact absurd h2 ((gap_not_line h1).1 _ _ _)
    | entry h2 => exact absurd h2 ((gap_not_line h1).1 _ _ _)
  | other h1 hw _ ih =>
    cases h' with
    | blank h2 => exact absurd h1 ((gap_not_line h2).1 _ _ _)
    | other _ _ h3 => exact ih h3
    | entry h2 h3 _ =>
      obtain ⟨x, hx⟩ := wanted_congr (liteLine_unique h2 h1).1 ⟨_, h3⟩
      exact absurd hx (hw x)
  | entry h1 hw _ ih =>
    cases h' with
    | blank h2 => exact absurd h1 ((gap_not_line h2).1 _ _ _)
    | other h2 h3 _ =>
      obtain ⟨x, hx⟩ := wanted_congr (liteLine_unique h1 h2).1 ⟨_, hw⟩
      exact absurd hx (h3 x)
    | entry h2 h3 h4 =>
      obtain ⟨e1, rfl, rfl⟩ := liteLine_unique h1 h2
      rw [wanted_unique e1 hw h3, ih h4]

theorem liteEntries_no_bad {req : Int} {ls1 ls2 : List Str} {l : Str} (hb : BadLine l) {es : List (Int × Str × Str)} :
    ¬ LiteEntries req (ls1 ++ l :: ls2) es := by
  intro h
  obtain ⟨ls, e⟩ : ∃ ls, ls = ls1 ++ l :: ls2 := ⟨_, rfl⟩
  rw [← e] at h
  induction h generalizing ls1 with
  | nil => cases ls1 <;> cases e
  | blank h1 _ ih =>
    cases ls1 with
    | nil => cases e; exact (gap_not_line h1).2 hb
    | cons => cases e; exact ih rfl
  | other h1 _ _ ih =>
    cases ls1 with
    | nil => cases e; exact liteLine_not_bad h1 hb
    | cons => cases e; exact ih rfl
  | entry h1 _ _ ih =>
    cases ls1 with
    | nil => cases e; exact liteLine_not_bad h1 hb
    | cons => cases e; exact ih rfl

/-- The number of bells, place notation, text and name a library entry shows. -/
def Shows (nameFlag : Bool) (v : View) (x : Int × Str × Str) : Prop :=
  v.bells = x.1 ∧ v.pn = .ok x.2.1 ∧ v.payload = some x.2.2 ∧ v.name = .ok (if nameFlag then x.2.2 else [])

theorem Holds.shows {fl : Bool} {e : LiteEntry} {x : Int × Str × Str} (h : Holds fl e x) : Shows fl (lite.view e) x := by
  obtain ⟨h1, h2, h3, h4⟩ := h
  refine ⟨h1, h2, ?_, ?_⟩
  · simp only [lite, h3]
  · simp only [lite, LiteEntry.name, h3, h4]
    cases fl <;> rfl

theorem listLoop_spec (fl : Bool) : ∀ (N : Nat) (ls : List Str), ls.length ≤ N → ∀ (e : LiteEntry) (l : Lite), StreamAt l.f ls → e.nameFlag = fl →
    (l.b ≠ 0 → e.b = l.b) →
    (∃ es, LiteEntries l.b ls es ∧ ∀ n, es.length < n → ∃ vs f', listLoop lite n e l = .ok (vs, { l with f := f' }) ∧ f'.ok = false ∧
      f'.eof = true ∧ List.Forall₂ (Shows fl) vs es) ∨
    (∃ ls1 bad ls2 es, ls = ls1 ++ bad :: ls2 ∧ LiteEntries l.b ls1 es ∧ BadLine bad ∧ ∀ n, es.length < n → listLoop lite n e l = .throw .badCast) := by
  intro N
  induction N using Nat.strong_induction_on with
  | _ N ih =>
    intro ls hN e l hs hf hb
    have hn : ls.length + 2 ≤ l.f.rest.length + 2 := by have := hs.length; omega
    have hread : ∀ r, liteRead l.b (l.f.rest.length + 2) e l.f = r → lite.read e l = r >>= fun r => .ok (r.1, r.2.1, { l with f := r.2.2 }) := by
      intro r hr; rw [← hr]; rfl
    rcases liteRead_spec e hs hn hf hb with ⟨a1, e', s', a2, a3, a4⟩ | ⟨ls1, bad, ls2, a1, a2, a3, a4⟩ | ⟨ls1, ln, ls2, x, e', s', a1, a2, a3, a4, a5, a6⟩
    · left
      refine ⟨[], a1, fun n hn => ?_⟩
      obtain ⟨k, rfl⟩ : ∃ k, n = k + 1 := ⟨n - 1, by simp at hn; omega⟩
      refine ⟨[], s', ?_, a3, a4, .nil⟩
      rw [listLoop, hread _ a2]
      simp
    · right
      refine ⟨ls1, bad, ls2, [], a1, a2, a3, fun n hn => ?_⟩
      obtain ⟨k, rfl⟩ : ∃ k, n = k + 1 := ⟨n - 1, by simp at hn; omega⟩
      rw [listLoop, hread _ a4]
      simp
    · have hlt : ls2.length < N := by rw [a1] at hN; simp at hN; omega
      have hone : ∀ k, listLoop lite (k + 1) e l = listLoop lite k e' { l with f := s' } >>= fun t => .ok (lite.view e' :: t.1, t.2) := by
        intro k; rw [listLoop, hread _ a3]; simp
      rcases ih _ hlt ls2 le_rfl e' { l with f := s' } a4 a5.2.2.2 a6 with ⟨es, b1, b2⟩ | ⟨ls3, bad, ls4, es, b1, b2, b3, b4⟩
      · left
        refine ⟨x :: es, ?_, fun n hn => ?_⟩
        · rw [a1, List.append_cons]; exact liteEntries_append a2 b1
        · obtain ⟨k, rfl⟩ : ∃ k, n = k + 1 := ⟨n - 1, by simp at hn; omega⟩
          obtain ⟨vs, f', c1, c2, c3, c4⟩ := b2 k (by simpa using hn)
          refine ⟨_ :: vs, f', ?_, c2, c3, .cons a5.shows c4⟩
          rw [hone, c1]; rfl
      · right
        refine ⟨(ls1 ++ [ln]) ++ ls3, bad, ls4, x :: es, ?_, liteEntries_append a2 b2, b3, fun n hn => ?_⟩
        · rw [a1, b1]; simp
        · obtain ⟨k, rfl⟩ : ∃ k, n = k + 1 := ⟨n - 1, by simp at hn; omega⟩
          rw [hone, b4 k (by simpa using hn)]; rfl

/-- A lightweight library for `req` bells that reads the text `t` when it is next iterated over. -/
def ReadsText (l : Lite) (req : Int) (t : Str) (nameFlag : Bool) : Prop :=
  l.b = req ∧ l.nameFlag = nameFlag ∧ (l.file = some t ∨ (l.file = none ∧ (l.f = ⟨t, false, false⟩ ∨ (t = [] ∧ l.f = ⟨[], true, false⟩))))

theorem ReadsText.start {l : Lite} {req : Int} {t : Str} {fl : Bool} (h : ReadsText l req t fl) {ls : List Str} (hl : Lines t ls) :
    StreamAt (lite.start l).f ls ∧ (lite.start l).b = req ∧ (lite.start l).nameFlag = fl ∧ (lite.start l).file = l.file := by
  obtain ⟨h1, h2, h3 | ⟨h3, h4 | ⟨rfl, h4⟩⟩⟩ := h
  · refine ⟨Or.inl ⟨t, ?_, hl⟩, ?_, ?_, ?_⟩ <;> simp [lite, h3, h1, h2]
  · refine ⟨Or.inl ⟨t, ?_, hl⟩, ?_, ?_, ?_⟩ <;> simp [lite, h3, h1, h2, h4]
  · have : ls = [] := List.length_eq_zero_iff.1 (by have := lines_length hl; simpa using this)
    refine ⟨Or.inr ⟨?_, this⟩, ?_, ?_, ?_⟩ <;> simp [lite, h3, h1, h2, h4]

/-- C60: iterating over a lightweight library gives the entries of the lines of its text, in order. -/
theorem C60_entries {l : Lite} {req : Int} {t : Str} {fl : Bool} (h : ReadsText l req t fl) {ls : List Str} (hl : Lines t ls)
    {es : List (Int × Str × Str)} (he : LiteEntries req ls es) {n : Nat} (hn : es.length < n) :
    ∃ vs l', list lite n l = .ok (vs, l') ∧ List.Forall₂ (Shows fl) vs es := by
  obtain ⟨h1, h2, h3, -⟩ := h.start hl
  unfold list
  rcases listLoop_spec fl _ ls le_rfl (lite.fresh (lite.start l)) (lite.start l) h1 h3 (fun _ => rfl) with ⟨es', b1, b2⟩ | ⟨ls1, bad, ls2, es', b1, b2, b3, b4⟩
  · rw [h2] at b1
    rw [C60_unique b1 he] at b2
    obtain ⟨vs, f', c1, c2, -, c3⟩ := b2 n hn
    exact ⟨vs, _, c1, c3⟩
  · rw [b1] at he
    exact absurd he (liteEntries_no_bad b3)

/-- C60: a line with something before the colon that is not a number ends the iteration with an exception. -/
theorem C60_bad {l : Lite} {req : Int} {t : Str} {fl : Bool} (h : ReadsText l req t fl) {ls1 ls2 : List Str} {bad : Str}
    (hl : Lines t (ls1 ++ bad :: ls2)) {es : List (Int × Str × Str)} (he : LiteEntries req ls1 es) (hb : BadLine bad) {n : Nat} (hn : es.length < n) :
    list lite n l = .throw .badCast := by
  obtain ⟨h1, h2, h3, -⟩ := h.start hl
  unfold list
  rcases listLoop_spec fl _ _ le_rfl (lite.fresh (lite.start l)) (lite.start l) h1 h3 (fun _ => rfl) with ⟨es', b1, b2⟩ | ⟨ls3, bad', ls4, es', b1, b2, b3, b4⟩
  · exact absurd b1 (liteEntries_no_bad hb)
  · rw [h2] at b2
    have key : ∀ (a c : List Str) (x y : Str) (b d : List Str) (ea ec : List (Int × Str × Str)), a ++ x :: b = c ++ y :: d → BadLine x → BadLine y →
        LiteEntries req a ea → LiteEntries req c ec → a = c := by
      intro a
      induction a with
      | nil =>
        intro c x y b d ea ec e hx hy ha hc
        cases c with
        | nil => rfl
        | cons z c => injection e with e1 e2; subst e1; exact absurd hc (liteEntries_no_bad (ls1 := []) hx)
      | cons z a ih =>
        intro c x y b d ea ec e hx hy ha hc
        cases c with
        | nil => injection e with e1 e2; subst e1; exact absurd ha (liteEntries_no_bad (ls1 := []) hy)
        | cons w c =>
          injection e with e1 e2; subst e1
          congr 1
          have tl : ∀ {u : List Str} {eu}, LiteEntries req (z :: u) eu → ∃ eu', LiteEntries req u eu' := by
            intro u eu hu; cases hu with
            | blank _ h => exact ⟨_, h⟩
            | other _ _ h => exact ⟨_, h⟩
            | entry _ _ h => exact ⟨_, h⟩
          obtain ⟨_, ha'⟩ := tl ha
          obtain ⟨_, hc'⟩ := tl hc
          exact ih c x y b d _ _ e2 hx hy ha' hc'
    obtain rfl := key _ _ _ _ _ _ _ _ b1 hb b3 he b2
    rw [C60_unique he b2] at hn
    exact b4 n hn

/-- C60: every text has entries or a first bad line. -/
theorem C60_cases (req : Int) (t : Str) : ∃ ls, Lines t ls ∧ ((∃ es, LiteEntries req ls es) ∨
    ∃ ls1 bad ls2 es, ls = ls1 ++ bad :: ls2 ∧ LiteEntries req ls1 es ∧ BadLine bad) := by
  obtain ⟨ls, hl⟩ := exists_lines t
  refine ⟨ls, hl, ?_⟩
  rcases listLoop_spec false _ ls le_rfl ⟨[], 0, req, false⟩ ⟨req, none, ⟨t, false, false⟩, false⟩ (Or.inl ⟨t, rfl, hl⟩) rfl (fun _ => rfl) with
    ⟨es, h, -⟩ | ⟨ls1, bad, ls2, es, h1, h2, h3, -⟩
  · exact Or.inl ⟨es, h⟩
  · exact Or.inr ⟨ls1, bad, ls2, es, h1, h2, h3⟩

/-- C60: the lines of a text are determined by the text. -/
theorem C60_lines {t : Str} {ls ls' : List Str} (h : Lines t ls) (h' : Lines t ls') : ls = ls' := by
  induction h generalizing ls' with
  | nil =>
    generalize ht : ([] : Str) = t at h'
    cases h' with
    | nil => rfl
    | last h => exact absurd ht.symm h
    | cons => simp at ht
  | @last l h1 h2 =>
    generalize ht : l = t at h'
    cases h' with
    | nil => exact absurd ht h1
    | last => rfl
    | cons => rw [ht] at h2; simp at h2
  | @cons l t ls h1 h2 ih =>
    generalize ht : l ++ '\n' :: t = t' at h'
    cases h' with
    | nil => simp at ht
    | last _ h3 => rw [← ht] at h3; simp at h3
    | @cons l2 t2 ls2 h3 h4 =>
      have e := congrArg takeLine ht
      rw [takeLine_append h1, takeLine_append h3] at e
      simp only [Prod.mk.injEq, Option.some.injEq] at e
      obtain ⟨rfl, rfl⟩ := e
      rw [ih h4]

theorem lite_ready {l : Lite} {req : Int} {t : Str} {fl : Bool} (h : ReadsText l req t fl) {n : Nat} {vs : List View} {l' : Lite}
    (hl : list lite n l = .ok (vs, l')) : ∃ f', l' = { l with f := f' } ∧ f'.ok = false ∧ f'.eof = true := by
  obtain ⟨ls, hls⟩ := exists_lines t
  obtain ⟨h1, h2, h3, h4⟩ := h.start hls
  have hst : ∀ f', ({ (lite.start l) with f := f' } : Lite) = { l with f := f' } := by
    intro f'
    obtain ⟨b, file, f, fl⟩ := l
    cases file <;> rfl
  unfold list at hl
  have mono : ∀ (n : Nat) (e : LiteEntry) (s : Lite) (r : List View × Lite), listLoop lite n e s = .ok r → ∀ m, n ≤ m → listLoop lite m e s = .ok r := by
    intro n
    induction n with
    | zero => intro e s r h; cases h
    | succ n ih =>
      intro e s r h m hm
      obtain ⟨k, rfl⟩ : ∃ k, m = k + 1 := ⟨m - 1, by omega⟩
      rw [listLoop] at h ⊢
      cases hr : lite.read e s with
      | ok q =>
        rw [hr] at h
        simp only [Out.ok_bind] at h ⊢
        split at h
        · rename_i hq
          rw [if_pos hq]
          cases hk : listLoop lite n q.2.1 q.2.2 with
          | ok w => rw [hk] at h; rw [ih _ _ _ hk k (by omega)]; exact h
          | throw _ => rw [hk] at h; cases h
          | ub => rw [hk] at h; cases h
          | timeout => rw [hk] at h; cases h
        · rename_i hq
          rw [if_neg hq]; exact h
      | throw _ => rw [hr] at h; cases h
      | ub => rw [hr] at h; cases h
      | timeout => rw [hr] at h; cases h
  rcases listLoop_spec fl _ ls le_rfl (lite.fresh (lite.start l)) (lite.start l) h1 h3 (fun _ => rfl) with ⟨es, b1, b2⟩ | ⟨ls1, bad, ls2, es, b1, b2, b3, b4⟩
  · obtain ⟨vs', f', c1, c2, c3, -⟩ := b2 (max n (es.length + 1)) (by omega)
    rw [mono _ _ _ _ hl _ (le_max_left _ _)] at c1
    injection c1 with c1
    injection c1 with c1 c4
    exact ⟨f', by rw [c4, hst], c2, c3⟩
  · have := b4 (max n (es.length + 1)) (by omega)
    rw [mono _ _ _ _ hl _ (le_max_left _ _)] at this
    cases this

/-- C60: a library made from a file gives the same entries every time; one made from a stream has no entries left
when it has been read. -/
theorem C60_again {l : Lite} {req : Int} {t : Str} {fl : Bool} (h : ReadsText l req t fl) {n : Nat} {vs : List View} {l' : Lite}
    (hl : list lite n l = .ok (vs, l')) :
    (l.file = some t → list lite n l' = .ok (vs, l')) ∧ (l.file = none → ∃ l'', list lite 1 l' = .ok ([], l'')) := by
  obtain ⟨f', rfl, hf, he⟩ := lite_ready h hl
  constructor
  · intro hfile
    have e : ∀ f', lite.start { l with f := f' } = lite.start l := by intro f'; simp [lite, hfile]
    unfold list at hl ⊢
    rw [e, hl]
  · intro hfile
    have e : lite.start { l with f := f' } = { l with f := f' } := by simp [lite, hfile]
    refine ⟨{ l with f := f' }, ?_⟩
    unfold list
    rw [e, listLoop]
    have : lite.read (lite.fresh { l with f := f' }) { l with f := f' } = .ok (false, lite.fresh { l with f := f' }, { l with f := f' }) := by
      show liteRead l.b (f'.rest.length + 2) _ f' >>= _ = _
      rw [liteRead, if_neg (by rw [hf]; simp)]
      rfl
    rw [this]; rfl

/-- C60: a byte order mark at the beginning of a stream is skipped. -/
theorem C60_bom (req : Int) (t : Str) (fl : Bool) : ReadsText (Lite.ofStream req ⟨bom ++ t, false, false⟩ fl) req t fl :=
  ⟨rfl, rfl, Or.inr ⟨rfl, Or.inl rfl⟩⟩

/-- C60: a stream that does not begin with the first byte of a mark is read from its beginning. -/
theorem C60_stream (req : Int) (t : Str) (ht : t.head? ≠ some (Char.ofNat 0xEF)) (fl : Bool) :
    ReadsText (Lite.ofStream req ⟨t, false, false⟩ fl) req t fl := by
  refine ⟨rfl, rfl, Or.inr ⟨rfl, ?_⟩⟩
  cases t with
  | nil => exact Or.inr ⟨rfl, rfl⟩
  | cons c t =>
    left
    have : c ≠ Char.ofNat 0xEF := by simpa using ht
    unfold Lite.ofStream skipBom
    have hp : peekIs ⟨c :: t, false, false⟩ (Char.ofNat 0xEF) = (false, ⟨c :: t, false, false⟩) := by
      simp [peekIs, IStream.good, this]
    simp only [IStream.ok, Bool.not_false, if_true, hp, Bool.false_eq_true, if_false]

/-- C60: a file is read from its beginning. -/
theorem C60_file (req : Int) (t : Str) (fl : Bool) : ReadsText (Lite.ofFile req t fl) req t fl := ⟨rfl, rfl, Or.inl rfl⟩

/-- C60, refutation: in a file the mark is not skipped, because `begin()` goes back to the beginning of the
file.  It becomes part of the place notation of the first entry, or the entry cannot be read. -/
theorem C60_file_bom :
    list lite 5 (Lite.ofFile 0 (bom ++ "6:x1x4,2 Foo\n".toList) true) = .throw .badCast ∧
    (∃ vs l', list lite 5 (Lite.ofStream 0 ⟨bom ++ "6:x1x4,2 Foo\n".toList, false, false⟩ true) = .ok (vs, l') ∧
      vs.map (fun v => (v.bells, v.pn, v.name)) = [(6, .ok "x1x4,2".toList, .ok "Foo".toList)]) ∧
    (∃ vs l', list lite 5 (Lite.ofFile 6 (bom ++ "x1x4,2 Foo\n".toList) true) = .ok (vs, l') ∧
      vs.map (fun v => v.pn) = [.ok (bom ++ "x1x4,2".toList)]) :=
  ⟨by decide +kernel, ⟨_, _, rfl, by decide +kernel⟩, ⟨_, _, rfl, by decide +kernel⟩⟩

example : LiteEntries 6 ["6:x1x4,2  Foo Bar ".toList, " \t".toList, "8:-1,2 Eight".toList, "x4x1,2".toList]
    [(6, "x1x4,2".toList, "Foo Bar".toList), (6, "x4x1,2".toList, [])] := by
  refine .entry (bells := some 6) ⟨"6:x1x4,2".toList, "  Foo Bar ".toList, ⟨[], by decide, by decide, by decide, ⟨'6', by decide, by decide⟩, ?_⟩, ⟨"  ".toList, " ".toList, by decide, by decide, by decide, ?_, ?_⟩, Or.inr ⟨['6'], 6, rfl, by decide, by decide, [], [], ['6'], [], by decide, by simp, by simp, by decide, ?_, Or.inl ⟨rfl, by decide⟩, by decide, by decide⟩⟩
    (Or.inr ⟨by decide, rfl, Or.inr (Or.inl rfl)⟩) (.blank (by decide) (.other (bells := some 8) (pn := "-1,2".toList) (text := "Eight".toList)
      ⟨"8:-1,2".toList, " Eight".toList, ⟨[], by decide, by decide, by decide, ⟨'8', by decide, by decide⟩, ?_⟩, ⟨" ".toList, [], by decide, by decide, by decide, ?_, ?_⟩, Or.inr ⟨['8'], 8, rfl, by decide, by decide, [], [], ['8'], [], by decide, by simp, by simp, by decide, ?_, Or.inl ⟨rfl, by decide⟩, by decide, by decide⟩⟩ ?_
      (.entry (bells := none) ⟨"x4x1,2".toList, [], ⟨[], by decide, by decide, by decide, ⟨'x', by decide, by decide⟩, by simp⟩, ⟨[], [], rfl, by simp, by simp, by simp, by simp⟩, Or.inl ⟨rfl, by decide, rfl⟩⟩ (Or.inr ⟨by decide, rfl, Or.inl rfl⟩) .nil)))
  all_goals first
    | (intro c hc; simp at hc; subst hc; decide)
    | (intro b hb; rcases hb with ⟨h, -⟩ | ⟨-, -, h⟩ <;> simp at h)
    | (intro c hc; simp only [List.mem_singleton] at hc; subst hc; unfold Digit; decide)

end Ringing.Lib
