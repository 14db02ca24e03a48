import Verif.Lemmas.Bell
import Verif.Props.RowCore

/-! C09 (bell symbols), C10 (row printing and parsing), the string part of C03. -/
namespace Ringing
open Spec

/-- C09: writing a bell and reading it back gives the bell, consuming exactly what was written,
whatever follows. -/
theorem C09_roundtrip {b : Nat} (hb : b < 256) (rest : List Char) :
    Bell.readExtended (Bell.write b ++ rest) = .ok (b, rest) := Bell.readExtended_write hb rest

/-- C09: the default symbols, as written in the documentation. -/
def defaultSymbols : List Char :=
  ['1','2','3','4','5','6','7','8','9','0','E','T','A','B','C','D','F','G','H','J','K','L','M','N',
   'P','Q','R','S','U','V','W','Y','Z']

/-- C09: a symbol, in either case, reads as the bell of its position in the table. -/
theorem C09_symbols (i : Nat) (h : i < defaultSymbols.length) :
    Bell.readChar defaultSymbols[i] = .ok i ∧ Bell.readChar defaultSymbols[i].toLower = .ok i ∧
      Bell.toChar i = defaultSymbols[i] := by
  have key : ∀ i : Fin 33, Bell.readChar (defaultSymbols[i.val]'i.isLt) = .ok i.val ∧
      Bell.readChar (defaultSymbols[i.val]'i.isLt).toLower = .ok i.val ∧
      Bell.toChar i.val = defaultSymbols[i.val]'i.isLt := by decide
  exact key ⟨i, h⟩

/-- C09: reading is case-insensitive. -/
theorem C09_case (c : Char) : Bell.readChar c = Bell.readChar c.toUpper := by
  have : c.toUpper.toUpper = c.toUpper := by
    by_cases h : c.val ≥ 'a'.val ∧ c.val ≤ 'z'.val
    · have h1 : c.toUpper.val.toNat = c.val.toNat - 32 := by
        have h2 : c.val.toNat ≤ 122 := h.2
        have h3 : 97 ≤ c.val.toNat := h.1
        unfold Char.toUpper
        rw [dif_pos h]
        show (c.val + ('A'.val - 'a'.val)).toNat = _
        rw [UInt32.toNat_add]
        have : ('A'.val - 'a'.val).toNat = 2 ^ 32 - 32 := by decide
        rw [this]; omega
      have h4 : ¬ (c.toUpper.val ≥ 'a'.val ∧ c.toUpper.val ≤ 'z'.val) := by
        rintro ⟨h5, -⟩
        have h2 : c.val.toNat ≤ 122 := h.2
        have h6 : 97 ≤ c.toUpper.val.toNat := h5
        omega
      generalize c.toUpper = d at h4
      unfold Char.toUpper; rw [dif_neg h4]
    · have : c.toUpper = c := by unfold Char.toUpper; rw [dif_neg h]
      rw [this, this]
  unfold Bell.readChar
  simp only [this]

/-- C09: `I` and `O`, in either case, stand for `1` and `0`. -/
theorem C09_IO : Bell.readChar 'I' = .ok 0 ∧ Bell.readChar 'i' = .ok 0 ∧
    Bell.readChar 'O' = .ok 9 ∧ Bell.readChar 'o' = .ok 9 := by decide

/-- C09: anything else (but NUL) is rejected. -/
theorem C09_reject (c : Char) (h0 : c.toUpper ≠ '\x00') (hI : c.toUpper ≠ 'I') (hO : c.toUpper ≠ 'O')
    (hs : c.toUpper ∉ defaultSymbols) :
    Bell.readChar c = .throw .bellInvalid ∧ Bell.isSymbol c = false := by
  have hsym : Bell.symbols = defaultSymbols := by decide
  have hstr : Bell.strchr c.toUpper = none := by
    unfold Bell.strchr
    rw [if_neg h0, List.findIdx?_eq_none_iff, hsym]
    intro x hx
    simp only [beq_eq_false_iff_ne]
    rintro rfl; exact hs hx
  have h1 : c.toUpper ≠ '1' := by intro h; rw [h] at hs; exact hs (by decide)
  have h2 : c.toUpper ≠ '0' := by intro h; rw [h] at hs; exact hs (by decide)
  unfold Bell.readChar Bell.isSymbol
  simp [hstr, h1, h2, hI, hO]

/-- C09: `is_symbol` says exactly what `read_char` accepts. -/
theorem C09_is_symbol (c : Char) : Bell.isSymbol c = true ↔ ∃ b, Bell.readChar c = .ok b := by
  have sI : Bell.strchr 'I' = none := by decide
  have s1 : Bell.strchr '1' = some 0 := by decide
  have sO : Bell.strchr 'O' = none := by decide
  have s0 : Bell.strchr '0' = some 9 := by decide
  have i1 : Bell.isSymbol '1' = true := by decide
  have i0 : Bell.isSymbol '0' = true := by decide
  generalize hx : Bell.isSymbol c = x
  generalize hy : Bell.readChar c = y
  unfold Bell.isSymbol at hx
  unfold Bell.readChar at hy
  cases h : Bell.strchr c.toUpper with
  | some i => simp only [h] at hx hy; subst hx hy; simp
  | none =>
    have hn1 : c.toUpper ≠ '1' := by intro e; rw [e, s1] at h; cases h
    have hn0 : c.toUpper ≠ '0' := by intro e; rw [e, s0] at h; cases h
    simp only [h, Option.isSome_none, Bool.false_eq_true, if_false, sI, s1, sO, s0,
      Option.isNone_none, Option.isNone_some, i1, i0, if_true, hn1, hn0, or_false] at hx hy
    by_cases hI : c.toUpper = 'I'
    · simp only [hI, if_true] at hx hy; subst hx hy; simp
    · by_cases hO : c.toUpper = 'O'
      · simp only [hO, if_true] at hx hy
        rw [if_neg (by decide)] at hx hy
        subst hx hy; simp
      · simp only [hI, hO, if_false] at hx hy; subst hx hy; simp

/-- C09, refutation: the extended syntax also accepts `{0}` and `{}`, both as bell 255, and the NUL
character counts as a symbol. -/
theorem C09_false : Bell.readExtended "{0}".toList = .ok (255, []) ∧
    Bell.readExtended "{}".toList = .ok (255, []) ∧ Bell.isSymbol '\x00' = true := by decide

/-- C09: a bell above 256 is rejected: whatever is accepted is an 8-bit bell. -/
theorem C09_range {s rest : List Char} {b : Nat} (h : Bell.readExtended s = .ok (b, rest)) :
    b < 256 := by
  cases s with
  | nil => cases h
  | cons c cs =>
    rcases Bell.readExtended_cases c cs with ⟨b', rest', h1, h2, h3⟩ | h1
    · rw [h1] at h; cases h; exact h2
    · rw [h1] at h; cases h

example : Bell.readExtended "{40}23".toList = .ok (39, "23".toList) := by decide
example : Bell.write 39 = "{40}".toList := by decide
example : Bell.readExtended "{300}".toList = .throw .bellInvalid := by decide

/-- C10: what `operator<<` writes for a row parses back to the row, at any stage. -/
theorem C10_write_parse {r : Row} (hr : IsRow r) : Row.ofStringC (Row.write r) = .ok r := by
  have hv := (isRow_iff_valid r).1 hr
  have hlt : ∀ b ∈ r, b < 256 := fun b hb => by
    have := hv.mem_iff.1 hb; have := hv.2; omega
  unfold Row.ofStringC Row.write
  rw [Row.readBells_write hlt _ le_rfl, Out.ok_bind]
  exact (C03_vector r hlt).1 hr

/-- C10: what `print()` gives for a row on up to 33 bells parses back to the row. -/
theorem C10_print_parse {r : Row} (hr : IsRow r) (h : r.length ≤ 33) :
    Row.ofStringC (Row.print r) = .ok r := by
  have hv := (isRow_iff_valid r).1 hr
  have : Row.print r = Row.write r := by
    have hlt : ∀ b ∈ r, b < 33 := fun b hb => by have := hv.mem_iff.1 hb; omega
    unfold Row.print Row.write
    clear hv hr h
    induction r with
    | nil => rfl
    | cons b r ih =>
      rw [List.map_cons, List.flatMap_cons, ih (fun x hx => hlt x (by simp [hx]))]
      simp [Bell.write, hlt b (by simp)]
  rw [this]; exact C10_write_parse hr

/-- C10: different rows are written differently. -/
theorem C10_write_injective {r s : Row} (hr : IsRow r) (hs : IsRow s) (h : Row.write r = Row.write s) :
    r = s := by
  have h1 := C10_write_parse hr
  rw [h, C10_write_parse hs] at h1
  cases h1; rfl

/-- C10: different rows on up to 33 bells print differently. -/
theorem C10_print_injective {r s : Row} (hr : IsRow r) (hs : IsRow s) (h1 : r.length ≤ 33)
    (h2 : s.length ≤ 33) (h : Row.print r = Row.print s) : r = s := by
  have h3 := C10_print_parse hr h1
  rw [h, C10_print_parse hs h2] at h3
  cases h3; rfl

example : Row.ofStringC "2143".toList = .ok [1, 0, 3, 2] := by decide
example : Row.print [1, 0, 3, 2] = "2143".toList := by decide

/-- C03: a row parsed from a string is a row made of the bells the string spells; otherwise the
constructor throws `bell::invalid` (if the string does not spell bells) or `row::invalid`. -/
theorem C03_string (s : List Char) :
    (∃ d, Row.readBells s.length s = .ok d ∧ IsRow d ∧ Row.ofStringC s = .ok d) ∨
    (∃ d, Row.readBells s.length s = .ok d ∧ ¬ IsRow d ∧ Row.ofStringC s = .throw .rowInvalid) ∨
    (Row.readBells s.length s = .throw .bellInvalid ∧ Row.ofStringC s = .throw .bellInvalid) := by
  unfold Row.ofStringC
  rcases Row.readBells_cases s.length s le_rfl with ⟨d, h1, h2⟩ | h1
  · rw [h1, Out.ok_bind]
    by_cases hd : IsRow d
    · exact Or.inl ⟨d, rfl, hd, (C03_vector d h2).1 hd⟩
    · exact Or.inr (Or.inl ⟨d, rfl, hd, (C03_vector d h2).2 hd⟩)
  · rw [h1]; exact Or.inr (Or.inr ⟨rfl, rfl⟩)

example : Row.ofStringC "2144".toList = .throw .rowInvalid := by decide
example : Row.ofStringC "21X3".toList = .throw .bellInvalid := by decide

end Ringing
