import Verif.Lemmas.SirilLiterals
import Verif.Props.Wildcard
import Verif.Props.RowCore
/-
C73: the literals of gsiril.
-/
namespace Ringing.Siril
open Literal Spec

/-! ### Bell expressions and ranges -/

/-- **C73**: an expression in braces is read exactly if it denotes a bell, and then as this bell (as an `int`, of which the low eight bits matter). -/
theorem C73_expression {bells : Int} {s : Str} :
    (∀ k, Denotes bells s k → ∃ k', parseBellExpr bells s = .ok k' ∧ k' % 256 = k % 256) ∧
    (∀ k', parseBellExpr bells s = .ok k' → ∃ k, Denotes bells s k ∧ k' % 256 = k % 256) ∧
    ((¬ ∃ k, Denotes bells s k) → parseBellExpr bells s = .throw .runtimeError) := by
  refine ⟨fun k h => denotes_parse h, fun k' h => ?_, fun h => ?_⟩
  · obtain ⟨k, h1, h2⟩ := parseBellExpr_denotes h
    exact ⟨k, h1, h2.symm⟩
  · rcases parseBellExpr_cases bells s with h1 | ⟨k, h1⟩
    · exact h1
    · obtain ⟨k', h2, -⟩ := parseBellExpr_denotes h1
      exact absurd ⟨k', h2⟩ h

/-- **C73**: with `N` for the number of bells and `N-1`, `N-2`... for those before it the last bells are meant, and numbers mean the bells counted
from one. -/
theorem C73_bells {n : Nat} (hn : n ≤ 33) {s : Str} {k : Int} (h : Denotes n s k) (h1 : 1 ≤ k) (h2 : k ≤ n) :
    parseBellExpr n s = .ok k ∧ bellText k = [Bell.toChar (k - 1).toNat] := by
  constructor
  · unfold Denotes at h
    obtain ⟨k', h3, h4⟩ := denotes_parse h
    rw [h3]
    congr 1
    -- the value is in the range of an int
    unfold parseBellExpr at h3
    rcases h with ⟨a, b, ha, hb, rfl, rfl⟩ | ⟨a, b, t, i, ha, hb, rfl, ht, rfl⟩ | h
    · rw [dropWhile_white ha, List.dropWhile_cons, if_neg (by decide)] at h3
      dsimp only at h3
      rw [if_pos rfl, dropWhile_all hb] at h3
      cases h3; rfl
    · rw [List.append_assoc, dropWhile_white ha, List.cons_append, List.dropWhile_cons, if_neg (by decide)] at h3
      dsimp only at h3
      rw [if_pos rfl, dropWhile_white hb, List.dropWhile_cons, if_neg (by decide)] at h3
      dsimp only at h3
      have : IsInt (t.dropWhile Bell.isSpace) i := by
        rw [split_white t, isInt_white (white_takeWhile t)] at ht
        exact ht
      rw [if_neg (by simp), isInt_iff.1 this, Out.ok_bind] at h3
      cases h3
      unfold i32
      omega
    · cases hd : s.dropWhile Bell.isSpace with
      | nil =>
        have : IsInt (s.dropWhile Bell.isSpace) k := by rw [split_white s, isInt_white (white_takeWhile s)] at h; exact h
        rw [hd] at this h3
        dsimp only at h3
        rw [isInt_iff.1 this] at h3
        cases h3; rfl
      | cons c t =>
        have hs := split_white s
        rw [hd] at hs h3
        dsimp only at h3
        by_cases hN : c = 'N'
        · subst hN
          rw [hs] at h
          exact absurd h (isInt_no_N (white_takeWhile s))
        · rw [if_neg hN] at h3
          rw [hs, isInt_white (white_takeWhile s)] at h
          rw [isInt_iff.1 h] at h3
          cases h3; rfl
  · unfold bellText Bell.write
    have : ((k - 1) % 256).toNat = (k - 1).toNat := by omega
    rw [this, if_pos (by omega)]

/-- **C73**: a text is expanded exactly to the text it stands for; if it stands for none it is rejected, and this always ends. -/
theorem C73_expands {bells : Int} {s : Str} :
    (∀ t, expandExprs bells s = .ok t ↔ Stands bells s t) ∧ ((¬ ∃ t, Stands bells s t) → ∃ e, expandExprs bells s = .throw e) := by
  refine ⟨fun t => expandExprs_iff, fun h => ?_⟩
  rcases expandExprs_ends bells s with ⟨t, h1⟩ | h1
  · exact absurd ⟨t, expandExprs_iff.1 h1⟩ h
  · exact h1

/-- **C73**: a text stands for at most one text. -/
theorem C73_stands_unique {bells : Int} {s t t' : Str} (h : Stands bells s t) (h' : Stands bells s t') : t = t' := by
  have h1 := expandExprs_iff.2 h
  rw [expandExprs_iff.2 h'] at h1
  cases h1; rfl

theorem unbraced_same {bells : Int} {s : Str} (h : '{' ∉ s) : Unbraced bells s s := by
  induction s with
  | nil => exact .nil
  | cons c s ih => exact .char (fun hc => h (by simp [hc])) (ih fun hc => h (by simp [hc]))

/-- **C73**: a text without braces and ranges stands for itself. -/
theorem C73_plain {bells : Int} {s : Str} (h : '{' ∉ s) (h' : ¬ HasRange s) : Stands bells s s := ⟨s, unbraced_same h, .plain h'⟩

/-! ### The three kinds of literals -/

/-- **C73**: place notation is read as the changes the grammar says for the text it stands for, if the number of bells is set, and otherwise
rejected. -/
theorem C73_pn {bells : Int} {s : Str} {e : Expr} :
    (literals bells).pn s = .ok e ↔ 0 < bells ∧ ∃ w t cs, White w ∧ Stands bells s (w ++ t) ∧ PNText bells.toNat t cs ∧ e = .pn cs [] := by
  show pnLit bells s = .ok e ↔ _
  unfold pnLit
  by_cases hb : bells ≤ 0
  · rw [if_pos hb]
    exact ⟨fun h => (by cases h), fun h => (by omega)⟩
  · rw [if_neg hb]
    constructor
    · intro h
      cases hu : expandExprs bells s with
      | ok u =>
        rw [hu, Out.ok_bind] at h
        cases hc : PN.ofCStr bells.toNat u with
        | ok cs =>
          rw [hc] at h
          cases h
          obtain ⟨w, t, h1, rfl, h2⟩ := (C18_meaning _ _ _).1 hc
          exact ⟨by omega, w, t, cs, h1, expandExprs_iff.1 hu, h2, rfl⟩
        | _ => rw [hc] at h; cases h
      | _ => rw [hu] at h; cases h
    · rintro ⟨-, w, t, cs, h1, h2, h3, rfl⟩
      rw [expandExprs_iff.2 h2, Out.ok_bind, (C18_meaning _ _ _).2 ⟨w, t, h1, rfl, h3⟩, Out.ok_bind]

/-- **C73**: a transposition is read exactly if it is a row on at most as many bells as are set, and then as this row, with the other bells in their
places. -/
theorem C73_transp {bells : Int} (hb : bells ≤ 256) {s : Str} {e : Expr} :
    (literals bells).transp s = .ok e ↔ 0 < bells ∧ ∃ r t, Row.ofStringC s = .ok r ∧ (r.length : Int) ≤ bells ∧ e = .transp t ∧
      IsRow t ∧ (t.length : Int) = bells ∧ ∀ i, bellAt t i = bellAt r i := by
  show transpLit bells s = .ok e ↔ _
  unfold transpLit
  by_cases h0 : bells ≤ 0
  · rw [if_pos h0]
    exact ⟨fun h => (by cases h), fun h => (by omega)⟩
  · rw [if_neg h0]
    obtain ⟨n, rfl⟩ : ∃ n : Nat, bells = n := ⟨bells.toNat, by omega⟩
    rw [Int.toNat_natCast]
    have hn : n ≤ 256 := by omega
    have hrounds : IsRow (Row.roundsC n) := by rw [Row.roundsC_eq hn]; exact (isRow_iff_valid _).2 (Row.valid_rounds hn)
    have hlen : (Row.roundsC n).length = n := by rw [Row.roundsC_eq hn]; exact List.length_range
    have hat : ∀ i, bellAt (Row.roundsC n) i = i := by
      intro i
      rw [Row.roundsC_eq hn, bellAt_eq_fn]
      by_cases h : i < n
      · rw [Row.fn_of_lt (by rw [Row.rounds, List.length_range]; exact h)]; simp [Row.rounds]
      · rw [Row.fn_of_ge (by rw [Row.rounds, List.length_range]; omega)]
    constructor
    · intro h
      rcases C03_string s with ⟨d, -, hd, h1⟩ | ⟨d, -, -, h1⟩ | ⟨-, h1⟩
      · rw [h1, Out.ok_bind] at h
        obtain ⟨p, h2, h3, h4, h5⟩ := C01_mul hrounds hd
        rw [h2, Out.ok_bind] at h
        split at h
        · cases h
        · rename_i h6
          cases h
          refine ⟨by omega, d, p, h1, by omega, rfl, h3, by omega, fun i => ?_⟩
          rw [h5, hat]
      · rw [h1] at h; cases h
      · rw [h1] at h; cases h
    · rintro ⟨-, r, t, h1, h2, rfl, h3, h4, h5⟩
      have hr : IsRow r := by
        rcases C03_string s with ⟨d, -, hd, h6⟩ | ⟨d, -, -, h6⟩ | ⟨-, h6⟩
        · rw [h6] at h1; cases h1; exact hd
        · rw [h6] at h1; cases h1
        · rw [h6] at h1; cases h1
      rw [h1, Out.ok_bind]
      obtain ⟨p, h6, h7, h8, h9⟩ := C01_mul hrounds hr
      have hp : p = t := C01_mul_unique (by omega) (fun i => by rw [h9, hat, h5])
      rw [h6, Out.ok_bind, if_neg (by rw [hp]; omega), hp]

theorem bellChar_not {c : Char} {b : Nat} (h : BellChar c b) : c ≠ '[' ∧ c ≠ ']' ∧ c ≠ '*' ∧ c ≠ '?' := by
  have key : ∀ d : Char, d.toUpper ∉ "1234567890ETABCDFGHJKLMNPQRSUVWYZ".toList → d.toUpper ≠ 'I' → d.toUpper ≠ 'O' → ¬ BellChar d b := by
    rintro d h1 h2 h3 (h | ⟨h, -⟩ | ⟨h, -⟩)
    · exact h1 (List.mem_of_getElem? h)
    · exact h2 h
    · exact h3 h
  refine ⟨?_, ?_, ?_, ?_⟩ <;> (rintro rfl; exact key _ (by decide) (by decide) (by decide) h)

theorem regexLoop_bells {cs : Str} {l : List Nat} (h : List.Forall₂ BellChar cs l) (rest : Str) (br : Bool) :
    regexLoop (cs ++ rest) br = regexLoop rest br := by
  induction h with
  | nil => rfl
  | cons h _ ih =>
    obtain ⟨h1, h2, h3, h4⟩ := bellChar_not h
    rw [List.cons_append, regexLoop, if_neg h1, if_neg h2, if_neg (by simp [h3, h4]), ih]

theorem regexLoop_ok {p : List Spec.Tok} {s : Str} (h : Spec.Spells p s) : regexLoop s false = .ok () := by
  induction h with
  | nil => rfl
  | bell h _ ih =>
    obtain ⟨h1, h2, h3, h4⟩ := bellChar_not h
    rw [regexLoop, if_neg h1, if_neg h2, if_neg (by simp [h3, h4]), ih]
  | any _ ih => rw [regexLoop]; simp [ih]
  | set h _ ih =>
    rw [regexLoop]
    simp only [if_true, if_false, Bool.false_eq_true]
    rw [regexLoop_bells h, regexLoop]
    simp [ih]
  | star _ ih => rw [regexLoop]; simp [ih]

theorem allowed_iff {n : Nat} (hn : n ≤ 256) (c : Char) : (Row.print (Row.roundsC n) ++ "*?[]".toList).contains c = true ↔
    c ∈ "1234567890ETABCDFGHJKLMNPQRSUVWYZ".toList.take n ∨ c ∈ "*?[]".toList := by
  rw [Row.roundsC_eq hn, List.contains_iff_mem, List.mem_append]
  unfold Row.print Row.rounds
  constructor
  · rintro (h | h)
    · obtain ⟨b, hb, rfl⟩ := List.mem_map.1 h
      rw [List.mem_range] at hb
      unfold Bell.toChar
      split
      · left
        rename_i h33
        have : b < Bell.symbols.length := h33
        rw [List.getD_eq_getElem?_getD, List.getElem?_eq_getElem this, Option.getD_some]
        rw [List.mem_take_iff_getElem]
        exact ⟨b, by simp only [Nat.lt_min]; exact ⟨hb, this⟩, rfl⟩
      · right; decide
    · exact .inr h
  · rintro (h | h)
    · left
      rw [List.mem_take_iff_getElem] at h
      obtain ⟨b, hb, rfl⟩ := h
      simp only [Nat.lt_min] at hb
      refine List.mem_map.2 ⟨b, List.mem_range.2 hb.1, ?_⟩
      unfold Bell.toChar
      have h33 : b < 33 := hb.2
      rw [if_pos h33, List.getD_eq_getElem?_getD]
      show ("1234567890ETABCDFGHJKLMNPQRSUVWYZ".toList[b]?).getD '*' = _
      rw [List.getElem?_eq_getElem hb.2]
      rfl
    · exact .inr h

/-- **C73**: a pattern is read exactly if the text it stands for is a pattern (`C43`) written with `*`, `?`, `[`, `]` and the symbols of the bells
there are (capital letters, no `I` and `O`); it counts one for each row it matches. -/
theorem C73_pattern {bells : Int} (hb : bells ≤ 256) {s : Str} {d : MusicDetails} :
    maskLit bells s = .ok d ↔ ∃ t p, Stands bells s t ∧ Spec.Spells p t ∧
      (∀ c ∈ t, c ∈ "1234567890ETABCDFGHJKLMNPQRSUVWYZ".toList.take bells.toNat ∨ c ∈ "*?[]".toList) ∧ d = ⟨⟨t, 0⟩, 0, 0, 1, 1, []⟩ := by
  unfold maskLit
  have hn : bells.toNat ≤ 256 := by omega
  have hany : ∀ t : Str, (t.any fun c => !(Row.print (Row.roundsC bells.toNat) ++ "*?[]".toList).contains c) = true ↔
      ¬ ∀ c ∈ t, c ∈ "1234567890ETABCDFGHJKLMNPQRSUVWYZ".toList.take bells.toNat ∨ c ∈ "*?[]".toList := by
    intro t
    rw [List.any_eq_true]
    push Not
    refine exists_congr fun c => and_congr Iff.rfl ?_
    rw [Bool.not_eq_true', ← Bool.not_eq_true, allowed_iff hn, not_or]
  have hnul : ∀ t : Str, (∀ c ∈ t, c ∈ "1234567890ETABCDFGHJKLMNPQRSUVWYZ".toList.take bells.toNat ∨ c ∈ "*?[]".toList) → '\x00' ∉ t := by
    intro t ht h
    rcases ht _ h with h1 | h1
    · exact absurd (List.mem_of_mem_take h1) (by decide)
    · exact absurd h1 (by decide)
  constructor
  · intro h
    cases hu : expandExprs bells s with
    | ok t =>
      rw [hu, Out.ok_bind] at h
      cases hm : MusicDetails.newC t 1 1 with
      | ok d' =>
        rw [hm, Out.ok_bind] at h
        have hpat : d'.pat.pat = t ∧ d' = ⟨d'.pat, 0, 0, 1, 1, []⟩ := by
          unfold MusicDetails.newC at hm
          cases hw : Wildcard.newC t 0 with
          | ok w =>
            rw [hw, Out.ok_bind] at hm
            cases hm
            unfold Wildcard.newC Wildcard.setBellsC at hw
            cases hc : Wildcard.checkExpression t with
            | ok u => rw [hc, Out.ok_bind, if_pos rfl] at hw; cases hw; exact ⟨rfl, rfl⟩
            | _ => rw [hc] at hw; cases hw
          | _ => rw [hw] at hm; cases hm
        by_cases hall : ∀ c ∈ t, c ∈ "1234567890ETABCDFGHJKLMNPQRSUVWYZ".toList.take bells.toNat ∨ c ∈ "*?[]".toList
        · have hv := (C43_valid t (hnul t hall) 0).1
          unfold MusicDetails.newC at hm
          cases hw : Wildcard.newC t 0 with
          | ok w =>
            rw [hw, Out.ok_bind] at hm
            cases hm
            obtain ⟨rfl, p, hp, -⟩ := (hv w).1 hw
            cases hr : validateRegex (⟨⟨t, 0⟩, 0, 0, 1, 1, []⟩ : MusicDetails) bells.toNat with
            | ok u =>
              rw [hr] at h
              cases h
              exact ⟨t, p, expandExprs_iff.1 hu, hp, hall, rfl⟩
            | _ => rw [hr] at h; cases h
          | _ => rw [hw] at hm; cases hm
        · exfalso
          unfold validateRegex at h
          dsimp only at h
          rw [hpat.1, if_pos ((hany t).2 hall)] at h
          cases h
      | _ => rw [hm] at h; cases h
    | _ => rw [hu] at h; cases h
  · rintro ⟨t, p, h1, h2, h3, rfl⟩
    rw [expandExprs_iff.2 h1, Out.ok_bind]
    have hv := ((C43_valid t (hnul t h3) 0).1 ⟨t, 0⟩).2 ⟨rfl, p, h2, .inl rfl⟩
    have hm : MusicDetails.newC t 1 1 = .ok ⟨⟨t, 0⟩, 0, 0, 1, 1, []⟩ := by
      unfold MusicDetails.newC
      rw [hv, Out.ok_bind]
    rw [hm, Out.ok_bind]
    unfold validateRegex
    dsimp only
    rw [if_neg (by rw [hany]; exact not_not.2 h3), regexLoop_ok h2, Out.ok_bind]

theorem checkLoop_ends (s : Str) (br : Bool) : Answers (Wildcard.checkLoop s br) := by
  induction s generalizing br with
  | nil => unfold Wildcard.checkLoop; split; exacts [.inr ⟨_, rfl⟩, ends_ok _]
  | cons c s ih =>
    unfold Wildcard.checkLoop
    repeat' split
    all_goals first | exact ih _ | exact .inr ⟨_, rfl⟩

theorem regexLoop_ends (s : Str) (br : Bool) : Answers (regexLoop s br) := by
  induction s generalizing br with
  | nil => exact ends_ok _
  | cons c s ih =>
    unfold regexLoop
    repeat' split
    all_goals first | exact ih _ | exact .inr ⟨_, rfl⟩

theorem maskLit_ends (bells : Int) (s : Str) : Answers (maskLit bells s) := by
  unfold maskLit
  refine ends_bind (expandExprs_ends bells s) fun t _ => ?_
  unfold MusicDetails.newC Wildcard.newC Wildcard.setBellsC
  refine ends_bind (ends_bind (ends_bind (checkLoop_ends t false) fun _ _ => ?_) fun w _ => ends_ok _) fun d _ => ?_
  · rw [if_pos rfl]; exact ends_ok _
  · refine ends_bind ?_ fun _ _ => ends_ok _
    unfold validateRegex
    dsimp only
    split
    · exact .inr ⟨_, rfl⟩
    · exact regexLoop_ends _ _

theorem mulC_total (a r : Row) : ∃ p, Row.mulC a r = .ok p := by
  unfold Row.mulC
  obtain ⟨m, hm⟩ : ∃ m, m = if a.length < r.length then r.length else a.length := ⟨_, rfl⟩
  have hm' : r.length ≤ m ∧ a.length ≤ m := by rw [hm]; split <;> omega
  have hm2 : r.length < m → m = a.length := by rw [hm]; split <;> omega
  simp only [← hm]
  obtain ⟨p1, h1, hl1⟩ := forUp_inv (lo := 0) (hi := r.length) (s := Row.roundsC m)
    (body := fun product i => do
      let ri ← vget r i
      if ri < a.length then do
        let x ← vget a ri
        vset product i x
      else
        vset product i ri)
    (fun _ p => p.length = m) (by omega) (by simp [Row.roundsC]) (by
      intro i s _ hi hl
      simp only [vget_ok hi, Out.ok_bind]
      split
      · rename_i hlt
        simp only [vget_ok hlt, Out.ok_bind]
        exact ⟨_, vset_ok _ (by omega), by simpa using hl⟩
      · exact ⟨_, vset_ok _ (by omega), by simpa using hl⟩)
  rw [h1, Out.ok_bind]
  obtain ⟨p2, h2, -⟩ := forUp_inv (lo := r.length) (hi := m) (s := p1)
    (body := fun product i => do
      let x ← vget a i
      vset product i x)
    (fun _ p => p.length = m) (by omega) hl1 (by
      intro i s h0 hi hl
      have := hm2 (by omega)
      simp only [vget_ok (show i < a.length by omega), Out.ok_bind]
      exact ⟨_, vset_ok _ (by omega), by simpa using hl⟩)
  exact ⟨p2, h2⟩

/-- **C73**: reading a literal always ends, with its value or an exception. -/
theorem C73_end (bells : Int) : ReadersEnd (literals bells) := by
  refine ⟨fun s => ?_, fun s => ?_, fun s => ?_⟩
  · show Answers (pnLit bells s)
    unfold pnLit
    split
    · exact .inr ⟨_, rfl⟩
    · refine ends_bind (expandExprs_ends bells s) fun t _ => ends_bind ?_ fun _ _ => ends_ok _
      rcases C18_rejects bells.toNat t with ⟨cs, h⟩ | h | h | h
      · exact .inl ⟨_, h⟩
      all_goals exact .inr ⟨_, h⟩
  · show Answers (transpLit bells s)
    unfold transpLit
    split
    · exact .inr ⟨_, rfl⟩
    · rcases C03_string s with ⟨d, -, hd, h1⟩ | ⟨d, -, -, h1⟩ | ⟨-, h1⟩
      · rw [h1, Out.ok_bind]
        obtain ⟨p, h2⟩ := mulC_total (Row.roundsC bells.toNat) d
        rw [h2, Out.ok_bind]
        split
        · exact .inr ⟨_, rfl⟩
        · exact ends_ok _
      · rw [h1]; exact .inr ⟨_, rfl⟩
      · rw [h1]; exact .inr ⟨_, rfl⟩
  · exact ends_bind (maskLit_ends bells s) fun _ _ => ends_ok _

/-! ### Findings -/

/-- Finding: `{0}` and `{257}` are accepted as bell expressions: `{257}` is the treble. -/
theorem C73_wrap_finding : expandExprs 8 "&{257}{N}".toList = .ok "&18".toList ∧ expandExprs 8 "{0}".toList = .ok "{256}".toList ∧
    expandExprs 8 "{N--1}".toList = .ok "9".toList := by decide +kernel

/-- Finding: braces within braces are always rejected, since the depth is not decremented at a closing brace (place_notation.h:101 looks at `*last`). -/
theorem C73_nested_finding (a b c rest : Str) (ha : ∀ x ∈ a, x ≠ '{' ∧ x ≠ '}') :
    PN.readBellExpr (.ok '\x00') ('{' :: (a ++ '{' :: (b ++ '}' :: (c ++ '}' :: rest)))) = .throw .bellInvalid := by
  unfold PN.readBellExpr
  simp only [if_true]
  have key : ∀ (a : Str) (acc : Str), (∀ x ∈ a, x ≠ '{' ∧ x ≠ '}') → ∀ u, PN.readExprLoop (.ok '\x00') (a ++ '{' :: u) 0 acc = .throw .bellInvalid := by
    intro a
    induction a with
    | nil =>
      intro acc _ u
      rw [List.nil_append, PN.readExprLoop, if_neg (by decide), if_pos rfl]
      exact PN.readExprLoop_deep endOk_nul _ _ _ (by omega)
    | cons x a ih =>
      intro acc h u
      have hx := h x (by simp)
      rw [List.cons_append, PN.readExprLoop, if_neg (by simp [hx.2]), if_neg hx.1]
      simp only [Out.ok_bind]
      rw [if_neg (by decide)]
      exact ih _ (fun y hy => h y (by simp [hy])) u
  exact key a _ ha _

/-- Finding: small letters are bells in transpositions and place notation, but not in patterns. -/
theorem C73_case_finding : (maskLit 12 "*et".toList = .throw .runtimeError) ∧ (∃ d, maskLit 12 "*ET".toList = .ok d) ∧
    Row.ofStringC "2134567890et".toList = Row.ofStringC "2134567890ET".toList ∧ (∃ r, Row.ofStringC "2134567890et".toList = .ok r) := by
  refine ⟨by decide +kernel, ⟨⟨⟨"*ET".toList, 0⟩, 0, 0, 1, 1, []⟩, by decide +kernel⟩, by decide +kernel, ⟨[1, 0, 2, 3, 4, 5, 6, 7, 8, 9, 10, 11], by decide +kernel⟩⟩

/-! ### Examples -/

example : expandExprs 8 "&-1{N}-1{N-1},2..5".toList = .ok "&-18-17,2345".toList := by decide +kernel
example : expandExprs 8 "7..3".toList = .ok "76543".toList := by decide +kernel
example : Stands 8 "1{ N - 1 }".toList "17".toList := expandExprs_iff.1 (by decide +kernel)
example : Denotes 8 " N - 1".toList 7 := .inr (.inl ⟨[' '], [' '], [' ', '1'], 1, by unfold White; decide, by unfold White; decide, rfl,
  ⟨[' '], [], ['1'], [], rfl, by simp [Spec.Space], by simp, by simp, by simp [Spec.Digit], .inl ⟨rfl, rfl⟩, by decide, by decide⟩, rfl⟩)
example : maskLit 6 "*4..6".toList = .ok ⟨⟨"*456".toList, 0⟩, 0, 0, 1, 1, []⟩ := by decide +kernel
example : maskLit 6 "*7".toList = .throw .runtimeError := by decide +kernel

end Ringing.Siril
