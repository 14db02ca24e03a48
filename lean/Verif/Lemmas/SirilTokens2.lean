import Verif.Lemmas.SirilTokens
/-
The first token of a line.
-/
namespace Ringing.Siril
open Lexis

/-- The characters with which quoted tokens begin. -/
def heads : List Char := ['/', '\'', '"', '?', ':', '.', '&', '|', '=', '!', '>', '<', '+', '-']

theorem tryTypes_other {m : Bool} {c : Char} {cs : Str} (h : c ∉ heads) : tryTypes (qtypes m) (c :: cs) = .ok none := by
  have k : ∀ d ∈ heads, (d == c) = false := by
    intro d hd; rw [beq_eq_false_iff_ne]; rintro rfl; exact h hd
  simp only [heads, List.forall_mem_cons, List.not_mem_nil, false_implies, implies_true, and_true] at k
  cases m <;> simp [tryTypes, qtypes, List.isPrefixOf, k]

theorem heads_start {T : TArgs} {c : Char} (h : NameStart T c) : c ∉ heads := by
  intro hc
  simp only [heads, List.mem_cons, List.not_mem_nil, or_false] at hc
  rcases hc with rfl | rfl | rfl | rfl | rfl | rfl | rfl | rfl | rfl | rfl | rfl | rfl | rfl | rfl <;>
    revert h <;> simp [NameStart, Letter]

theorem heads_digit {c : Char} (h : Lexis.Digit c) : c ∉ heads := by
  intro hc
  simp only [heads, List.mem_cons, List.not_mem_nil, or_false] at hc
  rcases hc with rfl | rfl | rfl | rfl | rfl | rfl | rfl | rfl | rfl | rfl | rfl | rfl | rfl | rfl <;>
    revert h <;> simp [Lexis.Digit]

theorem start_digit {T : TArgs} {c : Char} (h : Lexis.Digit c) : ¬ NameStart T c := by
  rintro (h1 | rfl | ⟨-, rfl⟩)
  · obtain ⟨h2, h3⟩ := h
    have a : c.toNat ≤ 57 := h3
    rcases h1 with ⟨h1, -⟩ | ⟨h1, -⟩
    · have b : 65 ≤ c.toNat := h1
      omega
    · have b : 97 ≤ c.toNat := h1
      omega
  · revert h; simp [Lexis.Digit]
  · revert h; simp [Lexis.Digit]

theorem quotedTok_done {q : Char} {k : LitKind} {b rest : Str} (h : q ∉ b) (h' : '\n' ∉ b) :
    quotedTok q k (q :: (b ++ q :: rest)) = .ok (.done (.lit k b) rest) := by
  have e := takeDrop (p := fun d => decide (d ≠ q ∧ d ≠ '\n')) (q := fun d => d ≠ q ∧ d ≠ '\n') (by simp) (b := b) (rest := q :: rest)
    (fun c hc => ⟨fun e => h (e ▸ hc), fun e => h' (e ▸ hc)⟩) (by rintro c r h; cases h; simp)
  rw [quotedTok, if_neg (by simp), e.2]
  simp only [e.1]; simp

theorem quotedTok_failed {q : Char} {k : LitKind} {rest : Str} (h : ¬ Closes q rest) (h' : '\n' ∈ rest) :
    quotedTok q k (q :: rest) = .ok .failed := by
  rcases Lib.split_first (fun d => d ≠ q ∧ d ≠ '\n') rest with h1 | ⟨b, d, r, rfl, hb, hd⟩
  · exact absurd rfl (h1 _ h').2
  have hq : d ≠ q := by rintro rfl; exact h ⟨b, r, rfl, fun hn => (hb _ hn).2 rfl⟩
  have hd' : d = '\n' := by tauto
  have e := takeDrop (p := fun d => decide (d ≠ q ∧ d ≠ '\n')) (q := fun d => d ≠ q ∧ d ≠ '\n') (by simp) (b := b) (rest := d :: r)
    hb (by rintro c r h; cases h; exact hd)
  rw [quotedTok, if_neg (by simp), e.2]
  simp [hq]

theorem pnTok_done {c : Char} {p rest : Str} (hc : c = '&' ∨ c = '+') (hp : Places p) (hn : p ≠ [])
    (hr : Stops (fun d => PlaceChar d ∨ d = '{') rest) : pnTok (c :: (p ++ rest)) = .ok (.done (.lit .pn (c :: p)) rest) := by
  rw [pnTok, if_neg (by tauto), pnScan_places hp hr _ le_rfl, Out.ok_bind]
  have : ¬ 1 + p.length < 2 := by have := List.length_pos_iff.2 hn; omega
  simp [this]

theorem pnTok_failed {c : Char} {rest : Str} (hc : c = '&' ∨ c = '+')
    (hr : Stops (fun d => PlaceChar d ∨ d = '{') rest) : pnTok (c :: rest) = .ok .failed := by
  have := pnScan_places .nil hr rest.length le_rfl
  rw [List.nil_append] at this
  rw [pnTok, if_neg (by tauto), this, Out.ok_bind]
  simp

theorem pnTok_bad {c : Char} {p b : Str} {d : Char} {r : Str} (hc : c = '&' ∨ c = '+') (hp : Places p) (hb : Inside b)
    (hd : d = '{' ∨ (d = '\n' ∧ r = [])) : pnTok (c :: (p ++ '{' :: (b ++ d :: r))) = .throw .bellInvalid := by
  rw [pnTok, if_neg (by tauto), pnScan_bad hp hb hd _ le_rfl]
  rfl

/-- The head of place notation is not the second character of a token of two characters. -/
theorem places_head {p s : Str} {x : Char} (hx : x = '&' ∨ x = '+' ∨ x = '=') (hp : Places p) (hs : p ≠ [] ∨ ∃ s', s = '{' :: s') :
    ∀ r, p ++ s ≠ x :: r := by
  intro r h
  cases hp with
  | nil =>
    rcases hs with hs | ⟨s', rfl⟩
    · exact hs rfl
    · simp at h; rcases hx with rfl | rfl | rfl <;> simp at h
  | @char c s hc _ =>
    simp at h
    obtain ⟨rfl, -⟩ := h
    rcases hx with rfl | rfl | rfl <;> revert hc <;> simp [PlaceChar, Letter, Lexis.Digit]
  | braces => simp at h; rcases hx with rfl | rfl | rfl <;> simp at h

theorem try_amp {m : Bool} {s : Str} (h : ∀ r, s ≠ '&' :: r) :
    tryTypes (qtypes m) ('&' :: s) = pnTok ('&' :: s) >>= fun
      | .done t rest => .ok (some (t, rest))
      | .failed => .ok none
      | .more => .ub := by
  have : List.isPrefixOf ['&', '&'] ('&' :: s) = false := by
    cases s with
    | nil => rfl
    | cons c s =>
      have : c ≠ '&' := by rintro rfl; exact h s rfl
      simp [List.isPrefixOf, Ne.symm this]
  have e2 : List.isPrefixOf ['&'] ('&' :: s) = true := by simp [List.isPrefixOf]
  cases m <;> simp [tryTypes, qtypes, this, e2] <;> congr 1

theorem try_plus {m : Bool} {s : Str} (h : ∀ r, s ≠ '+' :: r) :
    tryTypes (qtypes m) ('+' :: s) = pnTok ('+' :: s) >>= fun
      | .done t rest => .ok (some (t, rest))
      | .failed => .ok none
      | .more => .ub := by
  have : List.isPrefixOf ['+', '+'] ('+' :: s) = false := by
    cases s with
    | nil => rfl
    | cons c s =>
      have : c ≠ '+' := by rintro rfl; exact h s rfl
      simp [List.isPrefixOf, Ne.symm this]
  have e2 : List.isPrefixOf ['+'] ('+' :: s) = true := by simp [List.isPrefixOf]
  cases m <;> simp [tryTypes, qtypes, this, e2] <;> congr 1

theorem isPrefixOf_two {c d : Char} {s : Str} (h : Stops (· = d) s) : List.isPrefixOf [c, d] (c :: s) = false := by
  cases s with
  | nil => simp [List.isPrefixOf]
  | cons x r =>
    have := h x r rfl
    simp [List.isPrefixOf, Ne.symm this]

theorem first_run {T : TArgs} {s rest : Str} {t : Tok} (h : First T s t rest) (hn : '\n' ∈ s) : readTok T s = .ok (t, rest) := by
  obtain ⟨w, rfl, h⟩ := h
  cases h with
  | @comment b _ hb hr =>
    obtain ⟨r, rfl⟩ := hr
    have e : ∀ x y : Str, '\n' ∉ x → (x ++ '\n' :: y).dropWhile (fun c => decide (c ≠ '\n')) = '\n' :: y := by
      intro x y hx
      exact (takeDrop (q := fun c => c ≠ '\n') (by simp) (fun c hc e => hx (e ▸ hc)) (by rintro c r h; cases h; simp)).2
    unfold commentMark at *
    cases hm : T.msiril with
    | true =>
      have e' := e ('/' :: b) r (by simp [hb])
      simp only [if_true, List.cons_append, List.nil_append] at e' ⊢
      rw [readTok, hm, qtypes]
      simp [tryTypes, List.isPrefixOf, commentTok]
      simpa using e'
    | false =>
      have e' := e ('/' :: '/' :: b) r (by simp [hb])
      simp only [List.cons_append] at e' ⊢
      simp only [Bool.false_eq_true, if_false, List.cons_append, List.nil_append]
      rw [readTok, hm, qtypes]
      simp [tryTypes, List.isPrefixOf, commentTok]
      simpa using e'
  | @quoted q k b _ hq hb hb' hk =>
    have e : q :: (b ++ [q]) ++ rest = q :: (b ++ q :: rest) := by simp
    rw [e, readTok]
    have hd := quotedTok_done (k := k) (rest := rest) hb hb'
    cases hq with
    | transp =>
      rw [qtypes]; cases T.msiril <;> simp [tryTypes, List.isPrefixOf, hd]
    | string =>
      rw [qtypes]; cases T.msiril <;> simp [tryTypes, List.isPrefixOf, hd]
    | regex hm =>
      cases b with
      | nil => exact absurd rfl (hk rfl)
      | cons c b =>
        have : c ≠ '/' := fun e => hb (by simp [e])
        rw [qtypes, hm]; simp only [List.cons_append] at hd; simp [tryTypes, List.isPrefixOf, hd, Ne.symm this]
  | @pair a b y _ h =>
    simp only [pairs, List.mem_cons, Prod.mk.injEq, List.not_mem_nil, or_false] at h
    rcases h with ⟨rfl, rfl, rfl⟩ | ⟨rfl, rfl, rfl⟩ | ⟨rfl, rfl, rfl⟩ | ⟨rfl, rfl, rfl⟩ | ⟨rfl, rfl, rfl⟩ | ⟨rfl, rfl, rfl⟩ | ⟨rfl, rfl, rfl⟩ |
      ⟨rfl, rfl, rfl⟩ | ⟨rfl, rfl, rfl⟩ | ⟨rfl, rfl, rfl⟩ | ⟨rfl, rfl, rfl⟩ | ⟨rfl, rfl, rfl⟩ | ⟨rfl, rfl, rfl⟩ <;>
      · simp only [List.cons_append, List.nil_append]
        rw [readTok, qtypes]
        cases T.msiril <;> simp [tryTypes, List.isPrefixOf, fixedTok]
  | @place c b _ hc hp hne hr =>
    rw [List.cons_append, readTok]
    rcases hc with rfl | rfl
    · rw [try_amp (places_head (by simp) hp (Or.inl hne)), pnTok_done (by simp) hp hne hr]; rfl
    · rw [try_plus (places_head (by simp) hp (Or.inl hne)), pnTok_done (by simp) hp hne hr]; rfl
  | @name c b _ hc hb hr =>
    have e := takeDrop (idOther_iff T) hb hr
    rw [List.cons_append, readTok, tryTypes_other (heads_start hc), Out.ok_bind]
    dsimp only
    rw [if_pos ((idFirst_iff T c).2 hc), e.1, e.2]
    rw [List.map_congr_left (fun c _ => toLowerC_eq c)]
  | @number c b _ hc hb hr =>
    have e := takeDrop isDigit_iff' hb hr
    rw [List.cons_append, readTok, tryTypes_other (heads_digit hc), Out.ok_bind]
    dsimp only
    rw [if_neg (by rw [idFirst_iff]; exact start_digit hc), if_pos ((isDigit_iff' c).2 hc), e.1, e.2]
  | @single c y _ hy h1 h2 h3 h4 h5 h6 h7 =>
    have key : tryTypes (qtypes T.msiril) (c :: rest) = .ok none := by
      by_cases hh : c ∈ heads
      · have hn' : c ≠ '\n' → '\n' ∈ rest := by
          intro hc; simp at hn; rcases hn with h | h
          · exact absurd h.symm hc
          · exact h
        simp only [heads, List.mem_cons, List.not_mem_nil, or_false] at hh
        rcases hh with rfl | rfl | rfl | rfl | rfl | rfl | rfl | rfl | rfl | rfl | rfl | rfl | rfl | rfl
        · have hm : T.msiril = false := by
            cases hm : T.msiril with
            | true => exact absurd rfl (h6 hm)
            | false => rfl
          have hcl := h5 _ (.regex hm)
          have hp := isPrefixOf_two (c := '/') (d := '/') (s := rest)
            (by rintro x r rfl hx; subst hx; exact hcl ⟨[], r, rfl, by simp⟩)
          rw [hm]
          simp only [qtypes, Bool.false_eq_true, if_false, List.cons_append, List.nil_append, tryTypes, hp]
          simp [List.isPrefixOf, quotedTok_failed hcl (hn' (by decide))]
        · have hcl := h5 _ .transp
          cases T.msiril <;> simp [qtypes, tryTypes, List.isPrefixOf, quotedTok_failed hcl (hn' (by decide))]
        · have hcl := h5 _ .string
          cases T.msiril <;> simp [qtypes, tryTypes, List.isPrefixOf, quotedTok_failed hcl (hn' (by decide))]
        · have a := isPrefixOf_two (c := '?') (h4 '=' .defAssign (by decide))
          cases T.msiril <;> simp only [qtypes, tryTypes, if_true, if_false, Bool.false_eq_true, List.cons_append, List.nil_append, a] <;> simp [List.isPrefixOf]
        · have a := isPrefixOf_two (c := ':') (h4 '=' .immAssign (by decide))
          cases T.msiril <;> simp only [qtypes, tryTypes, if_true, if_false, Bool.false_eq_true, List.cons_append, List.nil_append, a] <;> simp [List.isPrefixOf]
        · have a := isPrefixOf_two (c := '.') (h4 '=' .appendAssign (by decide))
          cases T.msiril <;> simp only [qtypes, tryTypes, if_true, if_false, Bool.false_eq_true, List.cons_append, List.nil_append, a] <;> simp [List.isPrefixOf]
        · rw [try_amp (by rintro r rfl; exact h4 '&' .logicAnd (by decide) _ _ rfl rfl), pnTok_failed (by simp) (h7 (by simp))]; rfl
        · have a := isPrefixOf_two (c := '|') (h4 '|' .logicOr (by decide))
          cases T.msiril <;> simp only [qtypes, tryTypes, if_true, if_false, Bool.false_eq_true, List.cons_append, List.nil_append, a] <;> simp [List.isPrefixOf]
        · have a := isPrefixOf_two (c := '=') (h4 '=' .equals (by decide))
          cases T.msiril <;> simp only [qtypes, tryTypes, if_true, if_false, Bool.false_eq_true, List.cons_append, List.nil_append, a] <;> simp [List.isPrefixOf]
        · have a := isPrefixOf_two (c := '!') (h4 '=' .notEquals (by decide))
          cases T.msiril <;> simp only [qtypes, tryTypes, if_true, if_false, Bool.false_eq_true, List.cons_append, List.nil_append, a] <;> simp [List.isPrefixOf]
        · have a := isPrefixOf_two (c := '>') (h4 '=' .greaterEq (by decide))
          have b := isPrefixOf_two (c := '>') (h4 '>' .rightShift (by decide))
          cases T.msiril <;> simp only [qtypes, tryTypes, if_true, if_false, Bool.false_eq_true, List.cons_append, List.nil_append, a, b] <;> simp [List.isPrefixOf]
        · have a := isPrefixOf_two (c := '<') (h4 '=' .lessEq (by decide))
          have b := isPrefixOf_two (c := '<') (h4 '<' .leftShift (by decide))
          cases T.msiril <;> simp only [qtypes, tryTypes, if_true, if_false, Bool.false_eq_true, List.cons_append, List.nil_append, a, b] <;> simp [List.isPrefixOf]
        · rw [try_plus (by rintro r rfl; exact h4 '+' .increment (by decide) _ _ rfl rfl), pnTok_failed (by simp) (h7 (by simp))]; rfl
        · have a := isPrefixOf_two (c := '-') (h4 '-' .decrement (by decide))
          cases T.msiril <;> simp only [qtypes, tryTypes, if_true, if_false, Bool.false_eq_true, List.cons_append, List.nil_append, a] <;> simp [List.isPrefixOf]
      · exact tryTypes_other hh
    rw [List.cons_append, List.nil_append, readTok, key, Out.ok_bind]
    dsimp only
    rw [if_neg (by rw [idFirst_iff]; exact h1), if_neg (by rw [isDigit_iff']; exact h2), single_sym hy]

theorem bad_run {T : TArgs} {l : Str} (hl : '\n' ∉ l) (h : Bad (l ++ ['\n'])) : readTok T (l ++ ['\n']) = .throw .bellInvalid := by
  obtain ⟨c, p, b, r, e, hc, hp, hb, d, r', rfl, hd⟩ := h
  have hd' : d = '{' ∨ (d = '\n' ∧ r' = []) := by
    rcases hd with rfl | rfl
    · exact Or.inl rfl
    · rcases List.eq_nil_or_concat r' with h | ⟨m, x, rfl⟩
      · exact Or.inr ⟨rfl, h⟩
      · exfalso
        have : l ++ ['\n'] = (c :: (p ++ '{' :: (b ++ '\n' :: m))) ++ [x] := by rw [e]; simp
        have := (List.append_inj' this rfl).1
        exact hl (by rw [this]; simp)
  rw [e, readTok]
  rcases hc with rfl | rfl
  · rw [try_amp (places_head (by simp) hp (Or.inr ⟨_, rfl⟩)), pnTok_bad (by simp) hp hb hd']; rfl
  · rw [try_plus (places_head (by simp) hp (Or.inr ⟨_, rfl⟩)), pnTok_bad (by simp) hp hb hd']; rfl

end Ringing.Siril
