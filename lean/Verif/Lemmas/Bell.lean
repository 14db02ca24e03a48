import Verif.Model.Change
import Verif.Lemmas.Spec

namespace Ringing
namespace Bell

theorem scanDigits_append {ds : List Char} (hd : ∀ c ∈ ds, isDigit c = true) {e : Char}
    (he : isDigit e = false) (rest : List Char) (acc : Nat) :
    scanDigits (ds ++ e :: rest) acc =
      (ds.foldl (fun a c => min (10 * a + digitVal c) (2 ^ 64 - 1)) acc, e :: rest) := by
  induction ds generalizing acc with
  | nil => simp [scanDigits, he]
  | cons d ds ih =>
    rw [List.cons_append, scanDigits, if_pos (hd d (by simp)), ih (fun c hc => hd c (by simp [hc]))]
    rfl

theorem isDigit_cases {c : Char} (h : isDigit c = true) :
    isSpace c = false ∧ c ≠ '-' ∧ c ≠ '+' := by
  simp only [isDigit, decide_eq_true_eq] at h
  obtain ⟨h1, h2⟩ := h
  have key : ∀ d : Char, d < '0' → c ≠ d := fun d hd e => by
    subst e; exact absurd hd (Char.not_lt.2 h1)
  refine ⟨?_, key _ (by decide), key _ (by decide)⟩
  simp [isSpace, key ' ' (by decide), key '\t' (by decide), key '\n' (by decide),
    key '\x0b' (by decide), key '\x0c' (by decide), key '\r' (by decide)]

theorem strtoul_digits {d : Char} {ds : List Char} (hd : ∀ c ∈ d :: ds, isDigit c = true) {e : Char}
    (he : isDigit e = false) (rest : List Char) :
    strtoul ((d :: ds) ++ e :: rest) =
      ((d :: ds).foldl (fun a c => min (10 * a + digitVal c) (2 ^ 64 - 1)) 0, e :: rest) := by
  have hdd := hd d (by simp)
  obtain ⟨h1, h2, h3⟩ := isDigit_cases hdd
  have hdrop : List.dropWhile isSpace ((d :: ds) ++ e :: rest) = (d :: ds) ++ e :: rest := by
    rw [List.cons_append, List.dropWhile_cons_of_neg (by simp [h1])]
  unfold strtoul
  rw [hdrop]
  have hm : signSplit ((d :: ds) ++ e :: rest) = (false, (d :: ds) ++ e :: rest) := by
    simp [signSplit, h2, h3]
  rw [hm]
  simp only [List.cons_append, hdd, if_true]
  have := scanDigits_append hd he rest 0
  rw [List.cons_append] at this
  rw [this]
  simp

theorem decimal_spec : ∀ n < 258, (decimal n).all isDigit = true ∧
    (decimal n).foldl (fun a c => min (10 * a + digitVal c) (2 ^ 64 - 1)) 0 = n ∧
    (decimal n).isEmpty = false := by decide +kernel

theorem toChar_ne_brace : ∀ b < 33, toChar b ≠ '{' := by decide
theorem readChar_toChar : ∀ b < 33, readChar (toChar b) = .ok b := by decide

/-- Reading back what was written. -/
theorem readExtended_write {b : Nat} (hb : b < 256) (rest : List Char) :
    readExtended (write b ++ rest) = .ok (b, rest) := by
  unfold write
  split
  · rename_i h
    simp only [List.cons_append, List.nil_append, readExtended]
    rw [if_pos (toChar_ne_brace b h), readChar_toChar b h]; rfl
  · obtain ⟨h1, h2, h3⟩ := decimal_spec (b + 1) (by omega)
    rw [List.all_eq_true] at h1
    obtain ⟨d, ds, hds⟩ : ∃ d ds, decimal (b + 1) = d :: ds := by
      cases h : decimal (b + 1) with
      | nil => simp [h] at h3
      | cons d ds => exact ⟨d, ds, rfl⟩
    simp only [List.cons_append, List.append_assoc, List.nil_append, readExtended]
    rw [hds] at h1 h2 ⊢
    have hs := strtoul_digits h1 (e := '}') (by decide) rest
    rw [if_neg (by simp)]
    simp only [hs, h2]
    have hbr : isSpace '}' = false := by decide
    rw [List.dropWhile_cons_of_neg (by simp [hbr])]
    have hneg : ¬ (((d :: ds) ++ '}' :: rest).head? = some '-' ∨ '}' ≠ '}' ∨ b + 1 > 256) := by
      have := (isDigit_cases (h1 d (by simp))).2.1
      simp [this]; omega
    simp only [List.cons_append] at hneg ⊢
    rw [if_neg hneg]
    congr 2
    omega

theorem write_ne_nil (b : Nat) : write b ≠ [] := by
  unfold write; split <;> simp

theorem length_write_pos (b : Nat) : 0 < (write b).length := List.length_pos_iff.2 (write_ne_nil b)

end Bell

namespace Row

theorem readBells_write {l : List Nat} (hl : ∀ b ∈ l, b < 256) :
    ∀ fuel, (l.flatMap Bell.write).length ≤ fuel → readBells fuel (l.flatMap Bell.write) = .ok l := by
  induction l with
  | nil => intro fuel _; cases fuel <;> rfl
  | cons b bs ih =>
    intro fuel hf
    rw [List.flatMap_cons] at hf ⊢
    have hp := Bell.length_write_pos b
    rw [List.length_append] at hf
    obtain ⟨fuel, rfl⟩ : ∃ f, fuel = f + 1 := ⟨fuel - 1, by omega⟩
    have hr := Bell.readExtended_write (hl b (by simp)) (bs.flatMap Bell.write)
    obtain ⟨c, cs, hc⟩ := List.exists_cons_of_ne_nil
      (show Bell.write b ++ bs.flatMap Bell.write ≠ [] by simp [Bell.write_ne_nil])
    rw [hc] at hr ⊢
    rw [readBells, hr]
    · simp only [Out.ok_bind]
      rw [ih (fun x hx => hl x (by simp [hx])) fuel (by omega)]
      rfl
    · simp

end Row
end Ringing

namespace Ringing
namespace Bell

theorem scanDigits_length (s : List Char) (acc : Nat) : (scanDigits s acc).2.length ≤ s.length := by
  induction s generalizing acc with
  | nil => simp [scanDigits]
  | cons c cs ih =>
    unfold scanDigits
    split
    · exact le_trans (ih _) (by simp)
    · simp

theorem signSplit_length (s : List Char) : (signSplit s).2.length ≤ s.length := by
  cases s with
  | nil => simp [signSplit]
  | cons c cs =>
    simp only [signSplit]
    split
    · simp
    · split <;> simp

theorem dropWhile_length (p : Char → Bool) (s : List Char) : (s.dropWhile p).length ≤ s.length :=
  (List.dropWhile_suffix p).length_le

theorem strtoul_length (s : List Char) : (strtoul s).2.length ≤ s.length := by
  unfold strtoul
  simp only
  have h1 := signSplit_length (s.dropWhile isSpace)
  have h2 := dropWhile_length isSpace s
  split
  · split
    · exact le_trans (scanDigits_length _ _) (by omega)
    · simp
  · simp

theorem readChar_cases (c : Char) : (∃ b, readChar c = .ok b ∧ b < 34) ∨ readChar c = .throw .bellInvalid := by
  have hlen : symbols.length = 33 := by decide
  have hs : ∀ d i, strchr d = some i → i < 34 := by
    intro d i h
    unfold strchr at h
    split at h
    · cases h; omega
    · have := (List.findIdx?_eq_some_iff_getElem.1 h).1; omega
  generalize hx : readChar c = x
  unfold readChar at hx
  simp only at hx
  cases h : strchr c.toUpper with
  | some i =>
    rw [h] at hx; subst hx; exact Or.inl ⟨i, rfl, hs _ _ h⟩
  | none =>
    have e1 : isSymbol '1' = true := by decide
    have e0 : isSymbol '0' = true := by decide
    have eI : isSymbol 'I' = true := by decide
    have eO : isSymbol 'O' = true := by decide
    have s1 : strchr '1' = some 0 := by decide
    have s0 : strchr '0' = some 9 := by decide
    have sI : strchr 'I' = none := by decide
    have sO : strchr 'O' = none := by decide
    simp only [h, e1, e0, eI, eO, s1, s0, sI, sO, if_true] at hx
    split at hx
    · subst hx; exact Or.inl ⟨0, rfl, by omega⟩
    · split at hx
      · subst hx; exact Or.inr rfl
      · split at hx
        · subst hx; exact Or.inl ⟨9, rfl, by omega⟩
        · split at hx <;> subst hx <;> exact Or.inr rfl

/-- On a non-empty string `read_extended` consumes something and gives a bell, or throws. -/
theorem readExtended_cases (c : Char) (cs : List Char) :
    (∃ b rest, readExtended (c :: cs) = .ok (b, rest) ∧ b < 256 ∧ rest.length ≤ cs.length) ∨
      readExtended (c :: cs) = .throw .bellInvalid := by
  generalize hx : readExtended (c :: cs) = x
  simp only [readExtended] at hx
  by_cases h : c ≠ '{'
  · rw [if_pos h] at hx
    subst hx
    rcases readChar_cases c with ⟨b, hb, hlt⟩ | hb
    · rw [hb]; exact Or.inl ⟨b, cs, rfl, by omega, le_rfl⟩
    · rw [hb]; exact Or.inr rfl
  · rw [if_neg h] at hx
    have h1 := strtoul_length cs
    have h2 := dropWhile_length isSpace (strtoul cs).2
    subst hx
    split
    · exact Or.inr rfl
    · rename_i e endp' he
      split
      · exact Or.inr rfl
      · refine Or.inl ⟨_, _, rfl, Nat.mod_lt _ (by decide), ?_⟩
        rw [he] at h2
        simp at h2; omega

end Bell

namespace Row

theorem readBells_cases : ∀ (fuel : Nat) (s : List Char), s.length ≤ fuel →
    (∃ d, readBells fuel s = .ok d ∧ (∀ b ∈ d, b < 256)) ∨ readBells fuel s = .throw .bellInvalid := by
  intro fuel
  induction fuel with
  | zero =>
    intro s hs
    have : s = [] := List.length_eq_zero_iff.1 (by omega)
    subst this; exact Or.inl ⟨[], rfl, by simp⟩
  | succ fuel ih =>
    intro s hs
    cases s with
    | nil => exact Or.inl ⟨[], rfl, by simp⟩
    | cons c cs =>
      have e : readBells (fuel + 1) (c :: cs) = (do
          let (b, rest) ← Bell.readExtended (c :: cs)
          let bs ← readBells fuel rest
          pure (b :: bs)) := by
        rw [readBells]; simp
      rw [e]
      rcases Bell.readExtended_cases c cs with ⟨b, rest, h1, h2, h3⟩ | h1
      · rw [h1]
        simp only [Out.ok_bind]
        rcases ih rest (by simp at hs; omega) with ⟨d, h4, h5⟩ | h4
        · rw [h4]
          refine Or.inl ⟨b :: d, rfl, ?_⟩
          intro x hx
          rcases List.mem_cons.1 hx with h | h
          · omega
          · exact h5 x h
        · rw [h4]; exact Or.inr rfl
      · rw [h1]; exact Or.inr rfl

end Row
end Ringing
