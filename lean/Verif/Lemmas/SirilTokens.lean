import Verif.Spec.SirilTokens
import Verif.Lemmas.PlaceNotation
import Verif.Lemmas.Library
/-
How single tokens are read.
-/
namespace Ringing.Siril
open Lexis

theorem isAlpha_iff (c : Char) : Lib.isAlpha c = true ↔ Letter c := by simp [Lib.isAlpha, Letter]
theorem isDigit_iff' (c : Char) : Bell.isDigit c = true ↔ Lexis.Digit c := by simp [Bell.isDigit, Lexis.Digit]
theorem isAlnum_iff (c : Char) : PN.isAlnum c = true ↔ Letter c ∨ Lexis.Digit c := by
  simp [PN.isAlnum, Letter, Lexis.Digit]; tauto
theorem idFirst_iff (T : TArgs) (c : Char) : idFirst T.msiril c = true ↔ NameStart T c := by
  simp [idFirst, NameStart, isAlpha_iff, or_assoc]
theorem idOther_iff (T : TArgs) (c : Char) : idOther T.msiril c = true ↔ NamePart T c := by
  simp [idOther, NamePart, NameStart, isAlnum_iff]; tauto
theorem skip_iff (c : Char) : (Bell.isSpace c && c != '\n') = true ↔ Blank c := by
  simp [Bell.isSpace, Blank]; constructor
  · rintro ⟨h, h'⟩; tauto
  · rintro (rfl | rfl | rfl | rfl | rfl) <;> simp
theorem toLowerC_eq (c : Char) : toLowerC c = c.toLower := by
  have e : ('A' ≤ c ∧ c ≤ 'Z') ↔ (c.val ≥ 'A'.val ∧ c.val ≤ 'Z'.val) := Iff.rfl
  by_cases h : 'A' ≤ c ∧ c ≤ 'Z'
  · have h1 : 65 ≤ c.toNat := h.1
    have h2 : c.toNat ≤ 90 := h.2
    have key : ∀ n : Fin 26, toLowerC (Char.ofNat (65 + n)) = (Char.ofNat (65 + n)).toLower := by decide
    have := key ⟨c.toNat - 65, by omega⟩
    rwa [show 65 + (c.toNat - 65) = c.toNat by omega, Char.ofNat_toNat] at this
  · unfold toLowerC Char.toLower
    rw [if_neg h, dif_neg (fun h' => h (e.2 h'))]

theorem takeDrop {p : Char → Bool} {q : Char → Prop} (hp : ∀ c, p c = true ↔ q c) {b rest : Str} (hb : ∀ c ∈ b, q c) (hr : Stops q rest) :
    (b ++ rest).takeWhile p = b ∧ (b ++ rest).dropWhile p = rest := by
  induction b with
  | nil =>
    cases rest with
    | nil => simp
    | cons c r =>
      have := hr c r rfl
      rw [← hp] at this
      simp [this]
  | cons c b ih =>
    have h := (hp c).2 (hb c (by simp))
    have := ih fun d hd => hb d (by simp [hd])
    simp [h, this]

theorem single_sym {c : Char} {y : Sym} (h : Single c y) : charSym c = y := by
  rcases h with h | ⟨h, rfl⟩
  · simp only [singles, List.mem_cons, Prod.mk.injEq, List.not_mem_nil, or_false] at h
    rcases h with ⟨rfl, rfl⟩ | ⟨rfl, rfl⟩ | ⟨rfl, rfl⟩ | ⟨rfl, rfl⟩ | ⟨rfl, rfl⟩ | ⟨rfl, rfl⟩ | ⟨rfl, rfl⟩ | ⟨rfl, rfl⟩ | ⟨rfl, rfl⟩ | ⟨rfl, rfl⟩ |
      ⟨rfl, rfl⟩ | ⟨rfl, rfl⟩ | ⟨rfl, rfl⟩ | ⟨rfl, rfl⟩ | ⟨rfl, rfl⟩ | ⟨rfl, rfl⟩ | ⟨rfl, rfl⟩ | ⟨rfl, rfl⟩ | ⟨rfl, rfl⟩ | ⟨rfl, rfl⟩ |
      ⟨rfl, rfl⟩ | ⟨rfl, rfl⟩ | ⟨rfl, rfl⟩ <;> rfl
  · have key : ∀ d y, (d, y) ∈ singles → c ≠ d := fun d y hd e => h y (e ▸ hd)
    have k : ∀ d ∈ singles.map (·.1), c ≠ d := by
      intro d hd
      obtain ⟨⟨d', y⟩, h1, rfl⟩ := List.mem_map.1 hd
      exact key _ y h1
    simp only [singles, List.map_cons, List.map_nil, List.forall_mem_cons, List.not_mem_nil, false_implies, implies_true, and_true] at k
    simp [charSym, k]

theorem single_exists (c : Char) : Single c (charSym c) := by
  by_cases h : ∀ y, (c, y) ∉ singles
  · have := single_sym (Or.inr ⟨h, rfl⟩)
    rw [this]; exact Or.inr ⟨h, rfl⟩
  · push Not at h
    obtain ⟨y, h⟩ := h
    rw [single_sym (Or.inl h)]; exact Or.inl h

/-! ### Place notation -/

theorem endOk0 : PN.EndOk (.ok '\x00') := ⟨_, rfl, by decide⟩

theorem pnScan_places {p rest : Str} (hp : Places p) (hr : Stops (fun d => PlaceChar d ∨ d = '{') rest) :
    ∀ n, (p ++ rest).length ≤ n → pnScan n (p ++ rest) = .ok (p, rest) := by
  induction hp with
  | nil =>
    intro n hn
    cases rest with
    | nil => cases n <;> rfl
    | cons d r =>
      cases n with
      | zero => simp at hn
      | succ n =>
        have := hr d r rfl
        simp only [PlaceChar, not_or] at this
        have e : ¬ (PN.isAlnum d = true) := by rw [isAlnum_iff]; tauto
        rw [List.nil_append, pnScan, if_neg this.2, if_neg (by tauto)]
  | @char c s hc hs ih =>
    intro n hn
    cases n with
    | zero => simp at hn
    | succ n =>
      have hc' : c ≠ '{' := by
        rintro rfl
        revert hc; simp [PlaceChar, Letter, Lexis.Digit]
      rw [List.cons_append, pnScan, if_neg hc', if_pos (by rw [isAlnum_iff]; exact hc), ih n (by simp at hn ⊢; omega)]
      rfl
  | @braces b s hb hs ih =>
    intro n hn
    cases n with
    | zero => simp at hn
    | succ n =>
      have e : ('{' :: b ++ '}' :: s) ++ rest = '{' :: (b ++ '}' :: (s ++ rest)) := by simp
      rw [e] at hn ⊢
      rw [pnScan, if_pos rfl, PN.readBellExpr, if_pos rfl,
        PN.readExprLoop_body endOk0 (fun x hx => ⟨(hb x hx).1, (hb x hx).2.1⟩), Out.ok_bind]
      dsimp only
      rw [ih n (by simp at hn ⊢; omega)]
      simp

theorem pnScan_bad {p b : Str} {d : Char} {r : Str} (hp : Places p) (hb : Inside b) (hd : d = '{' ∨ (d = '\n' ∧ r = [])) :
    ∀ n, (p ++ '{' :: (b ++ d :: r)).length ≤ n → pnScan n (p ++ '{' :: (b ++ d :: r)) = .throw .bellInvalid := by
  have key : ∀ {b acc : Str}, Inside b → PN.readExprLoop (.ok '\x00') (b ++ d :: r) 0 acc = .throw .bellInvalid := by
    intro b
    induction b with
    | nil =>
      intro acc _
      rcases hd with rfl | ⟨rfl, rfl⟩
      · rw [List.nil_append, PN.readExprLoop, if_neg (by decide), if_pos rfl]
        exact PN.readExprLoop_deep endOk0 _ _ _ (by omega)
      · rfl
    | cons x b ih =>
      intro acc hx
      have h := hx x (by simp)
      rw [List.cons_append, PN.readExprLoop, if_neg (by simp [h.2.1]), if_neg h.1]
      simp only [Out.ok_bind]
      rw [if_neg (by decide)]
      exact ih fun y hy => hx y (by simp [hy])
  induction hp with
  | nil =>
    intro n hn
    cases n with
    | zero => simp at hn
    | succ n =>
      rw [List.nil_append, pnScan, if_pos rfl, PN.readBellExpr, if_pos rfl, key hb]; rfl
  | @char c s hc hs ih =>
    intro n hn
    cases n with
    | zero => simp at hn
    | succ n =>
      have hc' : c ≠ '{' := by
        rintro rfl
        revert hc; simp [PlaceChar, Letter, Lexis.Digit]
      rw [List.cons_append, pnScan, if_neg hc', if_pos (by rw [isAlnum_iff]; exact hc), ih n (by simp at hn ⊢; omega)]
      rfl
  | @braces b' s hb' hs ih =>
    intro n hn
    cases n with
    | zero => simp at hn
    | succ n =>
      have e : ('{' :: b' ++ '}' :: s) ++ '{' :: (b ++ d :: r) = '{' :: (b' ++ '}' :: (s ++ '{' :: (b ++ d :: r))) := by simp
      rw [e] at hn ⊢
      rw [pnScan, if_pos rfl, PN.readBellExpr, if_pos rfl,
        PN.readExprLoop_body endOk0 (fun x hx => ⟨(hb' x hx).1, (hb' x hx).2.1⟩), Out.ok_bind]
      dsimp only
      rw [ih n (by simp at hn ⊢; omega)]
      rfl

/-- A line is place notation up to something else, or has a brace that is not closed. -/
theorem places_or_bad : ∀ (n : Nat) (l : Str), l.length ≤ n → '\n' ∉ l →
    (∃ p rest, l ++ ['\n'] = p ++ rest ∧ Places p ∧ Stops (fun d => PlaceChar d ∨ d = '{') rest) ∨
    ∃ p b d r, l ++ ['\n'] = p ++ '{' :: (b ++ d :: r) ∧ Places p ∧ Inside b ∧ (d = '{' ∨ d = '\n') := by
  intro n
  induction n with
  | zero =>
    intro l hl _
    obtain rfl := List.length_eq_zero_iff.1 (Nat.le_zero.1 hl)
    exact Or.inl ⟨[], ['\n'], rfl, .nil, by rintro c r h; cases h; simp [PlaceChar, Letter, Lexis.Digit]⟩
  | succ n ih =>
    intro l hl hn
    cases l with
    | nil => exact Or.inl ⟨[], ['\n'], rfl, .nil, by rintro c r h; cases h; simp [PlaceChar, Letter, Lexis.Digit]⟩
    | cons c l =>
      simp only [List.mem_cons, not_or] at hn
      by_cases hc : PlaceChar c
      · rcases ih l (by simpa using hl) hn.2 with ⟨p, rest, e, hp, hr⟩ | ⟨p, b, d, r, e, hp, hb, hd⟩
        · exact Or.inl ⟨c :: p, rest, by simp [e], .char hc hp, hr⟩
        · exact Or.inr ⟨c :: p, b, d, r, by simp [e], .char hc hp, hb, hd⟩
      by_cases hc' : c = '{'
      · subst hc'
        rcases Lib.split_first (fun d => d ≠ '{' ∧ d ≠ '}' ∧ d ≠ '\n') (l ++ ['\n']) with h | ⟨b, d, r, e, hb, hd⟩
        · have := h '\n' (by simp); simp at this
        by_cases hd' : d = '}'
        · subst hd'
          have hr : ∃ l', r = l' ++ ['\n'] := by
            have e2 := congrArg List.getLast? e
            rcases List.eq_nil_or_concat r with rfl | ⟨l', x, rfl⟩
            · simp at e2
            · simp [List.getLast?_append, List.getLast?_cons] at e2
              exact ⟨l', by rw [e2]; simp⟩
          obtain ⟨l', rfl⟩ := hr
          have e3 : l = b ++ '}' :: l' := by
            have : l ++ ['\n'] = (b ++ '}' :: l') ++ ['\n'] := by rw [e]; simp
            exact List.append_cancel_right this
          subst e3
          have hn2 : '\n' ∉ l' := fun h => hn.2 (by simp [h])
          rcases ih l' (by simp at hl; omega) hn2 with ⟨p, rest, e, hp, hr⟩ | ⟨p, b', d, r, e, hp, hb', hd⟩
          · exact Or.inl ⟨'{' :: b ++ '}' :: p, rest, by simp [e], .braces hb hp, hr⟩
          · exact Or.inr ⟨'{' :: b ++ '}' :: p, b', d, r, by simp [e], .braces hb hp, hb', hd⟩
        · refine Or.inr ⟨[], b, d, r, by simp [e], .nil, hb, ?_⟩
          tauto
      · exact Or.inl ⟨[], c :: (l ++ ['\n']), rfl, .nil, by rintro x r h; cases h; tauto⟩

end Ringing.Siril
