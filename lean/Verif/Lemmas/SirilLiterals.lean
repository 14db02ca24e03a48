import Verif.Model.SirilLiterals
import Verif.Spec.SirilLiterals
import Verif.Lemmas.Library
import Verif.Lemmas.PlaceNotation
import Verif.Lemmas.SirilParser5
import Verif.Props.Bell
import Verif.Props.Method
/-
Reading bell expressions and ranges.
-/
namespace Ringing.Siril
open Literal Spec Lib

theorem dropWhile_white {a s : Str} (h : White a) : (a ++ s).dropWhile Bell.isSpace = s.dropWhile Bell.isSpace := by
  induction a with
  | nil => rfl
  | cons c a ih =>
    have hc := h c (by simp)
    rw [List.cons_append, List.dropWhile_cons, if_pos hc]
    exact ih fun d hd => h d (by simp [hd])

theorem dropWhile_all {a : Str} (h : White a) : a.dropWhile Bell.isSpace = [] := by
  have := dropWhile_white (s := []) h
  simpa using this

theorem white_takeWhile (s : Str) : White (s.takeWhile Bell.isSpace) := by
  intro c hc
  induction s with
  | nil => cases hc
  | cons d s ih =>
    rw [List.takeWhile_cons] at hc
    split at hc
    · rename_i hd
      rcases List.mem_cons.1 hc with rfl | hc
      · exact hd
      · exact ih hc
    · cases hc

theorem split_white (s : Str) : s = s.takeWhile Bell.isSpace ++ s.dropWhile Bell.isSpace := (List.takeWhile_append_dropWhile).symm

theorem isInt_white {a s : Str} {v : Int} (h : White a) : IsInt (a ++ s) v ↔ IsInt s v := by
  have e : lexicalCastInt (a ++ s) = lexicalCastInt s := by
    unfold lexicalCastInt
    rw [dropWhile_white h]
  have key : ∀ x : Str, IsInt x v ↔ lexicalCastInt x = .ok v := by
    intro x
    refine ⟨lexicalCast_spec, fun hx => ?_⟩
    rcases lexicalCast_cases x with h1 | ⟨v', h1, h2⟩
    · rw [h1] at hx; cases hx
    · rw [h1] at hx; cases hx; exact h2
  rw [key, key, e]

theorem isInt_iff {s : Str} {v : Int} : IsInt s v ↔ parseBellInt s = .ok v := by
  unfold parseBellInt
  rcases lexicalCast_cases s with h1 | ⟨v', h1, h2⟩
  · rw [h1]
    refine ⟨fun h => ?_, fun h => by cases h⟩
    rw [lexicalCast_spec h] at h1; cases h1
  · rw [h1]
    constructor
    · intro h; rw [lexicalCast_spec h] at h1; rw [h1]
    · intro h; cases h; exact h2

theorem parseBellInt_cases (s : Str) : parseBellInt s = .throw .runtimeError ∨ ∃ v, parseBellInt s = .ok v := by
  unfold parseBellInt
  rcases lexicalCast_cases s with h1 | ⟨v', h1, h2⟩
  · rw [h1]; exact .inl rfl
  · rw [h1]; exact .inr ⟨_, rfl⟩

theorem isInt_no_N {a b : Str} {v : Int} (ha : White a) : ¬ IsInt (a ++ 'N' :: b) v := by
  rw [isInt_white ha]
  rintro ⟨x, sg, ds, y, e, hx, hy, hne, hds, hs, -⟩
  obtain ⟨d, ds', rfl⟩ := List.exists_cons_of_ne_nil hne
  have hd := hds d (by simp)
  cases x with
  | cons c x =>
    have := hx c (by simp)
    injection e with e1 e2
    subst e1
    revert this; unfold Space; decide
  | nil =>
    rcases hs with ⟨rfl, -⟩ | ⟨rfl, -⟩ | ⟨rfl, -⟩
    · injection e with e1 e2
      subst e1
      revert hd; unfold Digit; decide
    · injection e with e1 e2
      exact absurd e1 (by decide)
    · injection e with e1 e2
      exact absurd e1 (by decide)

/-- What `parse_bell_expr` returns is what the expression denotes, up to the size of an `int`. -/
theorem parseBellExpr_denotes {bells : Int} {s : Str} {k : Int} (h : parseBellExpr bells s = .ok k) : ∃ k', Denotes bells s k' ∧ k' % 256 = k % 256 := by
  unfold parseBellExpr at h
  cases hd : s.dropWhile Bell.isSpace with
  | nil =>
    rw [hd] at h
    have h1 := isInt_iff.2 h
    have : ¬ IsInt [] k := by
      rintro ⟨x, sg, ds, y, e, hx, hy, hne, -⟩
      have := congrArg List.length e
      simp at this
      exact hne (List.length_eq_zero_iff.1 (by omega))
    exact absurd h1 this
  | cons c t =>
    rw [hd] at h
    dsimp only at h
    have hs := split_white s
    rw [hd] at hs
    by_cases hN : c = 'N'
    · subst hN
      rw [if_pos rfl] at h
      cases ht : t.dropWhile Bell.isSpace with
      | nil =>
        rw [ht] at h
        cases h
        refine ⟨bells, .inl ⟨_, t, white_takeWhile s, ?_, hs, rfl⟩, rfl⟩
        have := split_white t
        rw [ht, List.append_nil] at this
        rw [this]; exact white_takeWhile t
      | cons d u =>
        rw [ht] at h
        dsimp only at h
        by_cases hm : d = '-'
        · subst hm
          rw [if_neg (by simp)] at h
          rcases parseBellInt_cases (u.dropWhile Bell.isSpace) with h1 | ⟨i, h1⟩
          · rw [h1] at h; cases h
          · rw [h1, Out.ok_bind] at h
            cases h
            refine ⟨bells - i, .inr (.inl ⟨_, t.takeWhile Bell.isSpace, u, i, white_takeWhile s, white_takeWhile t, ?_, ?_, rfl⟩), ?_⟩
            · have := split_white t
              rw [ht] at this
              conv_lhs => rw [hs, this]
              simp
            · rw [split_white u, isInt_white (white_takeWhile u)]
              exact isInt_iff.2 h1
            · unfold i32
              omega
        · rw [if_pos hm] at h; cases h
    · rw [if_neg hN] at h
      refine ⟨k, .inr (.inr ?_), rfl⟩
      rw [hs, isInt_white (white_takeWhile s)]
      exact isInt_iff.2 h

/-- An expression that denotes a bell is read. -/
theorem denotes_parse {bells : Int} {s : Str} {k : Int} (h : Denotes bells s k) : ∃ k', parseBellExpr bells s = .ok k' ∧ k' % 256 = k % 256 := by
  unfold parseBellExpr
  have nN : Bell.isSpace 'N' = false := by decide
  have nM : Bell.isSpace '-' = false := by decide
  rcases h with ⟨a, b, ha, hb, rfl, rfl⟩ | ⟨a, b, t, i, ha, hb, rfl, ht, rfl⟩ | h
  · rw [dropWhile_white ha, List.dropWhile_cons, if_neg (by simp [nN])]
    dsimp only
    rw [if_pos rfl, dropWhile_all hb]
    exact ⟨_, rfl, rfl⟩
  · rw [List.append_assoc, dropWhile_white ha, List.cons_append, List.dropWhile_cons, if_neg (by simp [nN])]
    dsimp only
    rw [if_pos rfl, dropWhile_white hb, List.dropWhile_cons, if_neg (by simp [nM])]
    dsimp only
    rw [if_neg (by simp)]
    have : IsInt (t.dropWhile Bell.isSpace) i := by
      rw [split_white t, isInt_white (white_takeWhile t)] at ht
      exact ht
    rw [isInt_iff.1 this, Out.ok_bind]
    exact ⟨_, rfl, by unfold i32; omega⟩
  · cases hd : s.dropWhile Bell.isSpace with
    | nil =>
      have : IsInt (s.dropWhile Bell.isSpace) k := by rw [split_white s, isInt_white (white_takeWhile s)] at h; exact h
      rw [hd] at this
      exact ⟨k, isInt_iff.1 this, rfl⟩
    | cons c t =>
      have hs := split_white s
      rw [hd] at hs
      dsimp only
      by_cases hN : c = 'N'
      · subst hN
        rw [hs] at h
        exact absurd h (isInt_no_N (white_takeWhile s))
      · rw [if_neg hN]
        rw [hs, isInt_white (white_takeWhile s)] at h
        exact ⟨k, isInt_iff.1 h, rfl⟩

theorem parseBellExpr_cases (bells : Int) (s : Str) : parseBellExpr bells s = .throw .runtimeError ∨ ∃ k, parseBellExpr bells s = .ok k := by
  unfold parseBellExpr
  split
  · exact parseBellInt_cases _
  · split
    · split
      · exact .inr ⟨_, rfl⟩
      · split
        · exact .inl rfl
        · rename_i u _ _
          rcases parseBellInt_cases (u.dropWhile Bell.isSpace) with h | ⟨v, h⟩
          · rw [h]; exact .inl rfl
          · rw [h]; exact .inr ⟨_, rfl⟩
    · exact parseBellInt_cases _

theorem exprBell_mod {k k' : Int} (h : k' % 256 = k % 256) : Bell.write (exprBell k) = bellText k' := by
  unfold exprBell bellText
  congr 2
  omega

theorem exprLoop_sound {bells : Int} {n : Nat} {s t : Str} (h : exprLoop bells n s = .ok t) : Unbraced bells s t := by
  induction n generalizing s t with
  | zero =>
    cases s with
    | nil => cases h; exact .nil
    | cons c s => cases h
  | succ n ih =>
    cases s with
    | nil => cases h; exact .nil
    | cons c s =>
      rw [exprLoop] at h
      by_cases hc : c = '{'
      · subst hc
        rw [if_pos rfl] at h
        unfold PN.readBellExpr at h
        simp only [if_true] at h
        rcases PN.readExprLoop_cases endOk_nul s ['{'] with ⟨b, rest, h1, h2, h3⟩ | h3
        · rw [h3, Out.ok_bind] at h
          simp only [List.reverse_singleton, List.singleton_append, List.tail_cons, List.dropLast_concat] at h
          cases hk : parseBellExpr bells b with
          | ok k =>
            rw [hk, Out.ok_bind] at h
            cases hu : exprLoop bells n rest with
            | ok u =>
              rw [hu] at h
              cases h
              obtain ⟨k', hk1, hk2⟩ := parseBellExpr_denotes hk
              rw [exprBell_mod hk2, h1]
              exact .expr h2 hk1 (ih hu)
            | _ => rw [hu] at h; cases h
          | _ => rw [hk] at h; cases h
        · rw [h3] at h; cases h
      · rw [if_neg hc] at h
        cases hu : exprLoop bells n s with
        | ok u => rw [hu] at h; cases h; exact .char hc (ih hu)
        | _ => rw [hu] at h; cases h

theorem exprLoop_complete {bells : Int} {s t : Str} (h : Unbraced bells s t) : ∀ {n : Nat}, s.length ≤ n → exprLoop bells n s = .ok t := by
  induction h with
  | nil => intro n _; cases n <;> rfl
  | @char c s t hc _ ih =>
    intro n hn
    obtain ⟨m, rfl⟩ : ∃ m, n = m + 1 := ⟨n - 1, by simp only [List.length_cons] at hn; omega⟩
    rw [exprLoop, if_neg hc, ih (by simp only [List.length_cons] at hn; omega)]
    rfl
  | @expr e s t k he hk _ ih =>
    intro n hn
    simp only [List.length_cons, List.length_append] at hn
    obtain ⟨m, rfl⟩ : ∃ m, n = m + 1 := ⟨n - 1, by omega⟩
    rw [exprLoop, if_pos rfl]
    unfold PN.readBellExpr
    simp only [if_true]
    rw [PN.readExprLoop_body endOk_nul he, Out.ok_bind]
    simp only [List.reverse_singleton, List.singleton_append, List.tail_cons, List.dropLast_concat]
    obtain ⟨k', h1, h2⟩ := denotes_parse hk
    rw [h1, Out.ok_bind, ih (by omega), exprBell_mod h2.symm]
    rfl

theorem exprLoop_ends (bells : Int) (n : Nat) (s : Str) (h : s.length ≤ n) : Answers (exprLoop bells n s) := by
  induction n generalizing s with
  | zero =>
    cases s with
    | nil => exact ends_ok _
    | cons c s => simp at h
  | succ n ih =>
    cases s with
    | nil => exact ends_ok _
    | cons c s =>
      simp only [List.length_cons] at h
      rw [exprLoop]
      split
      · unfold PN.readBellExpr
        rename_i hc
        subst hc
        simp only [if_true]
        rcases PN.readExprLoop_cases endOk_nul s ['{'] with ⟨b, rest, h1, h2, h3⟩ | h3
        · rw [h3, Out.ok_bind]
          simp only [List.reverse_singleton, List.singleton_append, List.tail_cons, List.dropLast_concat]
          have hl : rest.length ≤ n := by rw [h1] at h; simp only [List.length_append, List.length_cons] at h; omega
          rcases parseBellExpr_cases bells b with hk | ⟨k, hk⟩
          · rw [hk]; exact .inr ⟨_, rfl⟩
          · rw [hk, Out.ok_bind]
            exact ends_bind (ih rest hl) fun _ _ => ends_ok _
        · rw [h3]; exact .inr ⟨_, rfl⟩
      · exact ends_bind (ih s (by omega)) fun _ _ => ends_ok _

/-! ### Ranges -/

theorem between_up (a n : Nat) : Between a (a + n + 1) ((List.range' (a + 1) n).flatMap Bell.write) := by
  induction n generalizing a with
  | zero => exact .next
  | succ n ih =>
    rw [List.range'_succ, List.flatMap_cons]
    have := ih (a + 1)
    exact .up (by omega) (by rw [show a + (n + 1) + 1 = a + 1 + n + 1 by omega]; exact this)

theorem between_down (b n : Nat) : Between (b + n + 1) b ((List.range' (b + 1) n).reverse.flatMap Bell.write) := by
  induction n with
  | zero => exact .prev
  | succ n ih =>
    rw [List.range'_concat, List.reverse_append, List.reverse_singleton, List.singleton_append, List.flatMap_cons]
    have := Between.down (a := b + (n + 1) + 1) (b := b) (by omega) ih
    rw [show b + 1 + 1 * n = b + (n + 1) + 1 - 1 by omega]
    exact this

theorem between_spec (a b : Nat) : Between a b (between a b) := by
  unfold between
  split
  · have := between_up a (b - a - 1)
    rwa [show a + (b - a - 1) + 1 = b by omega] at this
  · by_cases h : a = b
    · subst h
      rw [show a - a - 1 = 0 by omega]
      exact .same
    · have := between_down b (a - b - 1)
      rwa [show b + (a - b - 1) + 1 = a by omega] at this

theorem between_unique {a b : Nat} {t t' : Str} (h : Between a b t) (h' : Between a b t') : t = t' := by
  induction h generalizing t' with
  | same => cases h' with
    | same => rfl
    | up h1 _ => omega
    | down h1 _ => omega
  | next =>
    have : ∀ {a b : Nat} {t : Str}, Between a b t → b = a + 1 → t = [] := by
      intro a b t h e
      cases h with
      | same => rfl
      | next => rfl
      | prev => rfl
      | up h1 _ => omega
      | down h1 _ => omega
    exact (this h' rfl).symm
  | prev =>
    have : ∀ {a b : Nat} {t : Str}, Between a b t → a = b + 1 → t = [] := by
      intro a b t h e
      cases h with
      | same => rfl
      | next => rfl
      | prev => rfl
      | up h1 _ => omega
      | down h1 _ => omega
    exact (this h' rfl).symm
  | up h1 _ ih =>
    have key : ∀ {a b : Nat} {t : Str}, Between a b t → a + 1 < b → ∃ u, Between (a + 1) b u ∧ t = Bell.write (a + 1) ++ u := by
      intro a b t h h1
      cases h with
      | up _ h => exact ⟨_, h, rfl⟩
      | same => omega
      | next => omega
      | prev => omega
      | down h2 _ => omega
    obtain ⟨u, h2, rfl⟩ := key h' h1
    rw [ih h2]
  | down h1 _ ih =>
    have key : ∀ {a b : Nat} {t : Str}, Between a b t → b + 1 < a → ∃ u, Between (a - 1) b u ∧ t = Bell.write (a - 1) ++ u := by
      intro a b t h h1
      cases h with
      | down _ h => exact ⟨_, h, rfl⟩
      | same => omega
      | next => omega
      | prev => omega
      | up h2 _ => omega
    obtain ⟨u, h2, rfl⟩ := key h' h1
    rw [ih h2]

theorem hasRange_cons {c : Char} {s : Str} (h : HasRange s) : HasRange (c :: s) := by
  obtain ⟨u, p, d, v, rfl⟩ := h
  exact ⟨c :: u, p, d, v, rfl⟩

theorem hasRange_append {a s b : Str} (h : HasRange s) : HasRange (a ++ s ++ b) := by
  obtain ⟨u, p, d, v, rfl⟩ := h
  exact ⟨a ++ u, p, d, v ++ b, by simp⟩

/-- The step of the loop where there is no range. -/
theorem rangeLoop_copy {p : Option Char} {c : Char} {cs : Str}
    (h : ∀ x d rest, p = some x → cs = '.' :: d :: rest → c ≠ '.') :
    rangeLoop p (c :: cs) = (rangeLoop (some c) cs >>= fun u => .ok (c :: u)) := by
  cases p with
  | none => cases cs <;> rfl
  | some x =>
    cases cs with
    | nil => rfl
    | cons d cs =>
      cases cs with
      | nil => rfl
      | cons y rest =>
        rw [rangeLoop, if_neg]
        rintro ⟨h1, rfl⟩
        exact h x y rest rfl rfl h1

theorem rangeLoop_none {p : Option Char} {s : Str} (h : ¬ HasRange (p.toList ++ s)) : rangeLoop p s = .ok s := by
  induction s generalizing p with
  | nil => rfl
  | cons c s ih =>
    rw [rangeLoop_copy, ih (p := some c), Out.ok_bind]
    · intro h'
      apply h
      have := hasRange_append (a := p.toList) (b := []) h'
      simpa using this
    · rintro x d rest rfl rfl rfl
      exact h ⟨[], x, d, rest, rfl⟩

theorem rangeLoop_first {p : Option Char} {u v : Str} {x d : Char} (h : ¬ HasRange (p.toList ++ u ++ [x, '.', '.'])) :
    rangeLoop p (u ++ x :: '.' :: '.' :: d :: v) = (Bell.readChar x >>= fun a => Bell.readChar d >>= fun b =>
      rangeLoop (some '.') (d :: v) >>= fun t => .ok (u ++ x :: (between a b ++ t))) := by
  induction u generalizing p with
  | nil =>
    rw [List.nil_append, rangeLoop_copy]
    · have : rangeLoop (some x) ('.' :: '.' :: d :: v) = (Bell.readChar x >>= fun a => Bell.readChar d >>= fun b =>
          rangeLoop (some '.') (d :: v) >>= fun t => .ok (between a b ++ t)) := by
        rw [rangeLoop, if_pos ⟨rfl, rfl⟩]
      rw [this]
      cases Bell.readChar x with
      | ok a =>
        rw [Out.ok_bind, Out.ok_bind]
        cases Bell.readChar d with
        | ok b =>
          rw [Out.ok_bind, Out.ok_bind]
          cases rangeLoop (some '.') (d :: v) <;> rfl
        | _ => rfl
      | _ => rfl
    · rintro y d' rest rfl e rfl
      exact h ⟨[], y, '.', [], rfl⟩
  | cons c u ih =>
    have hc : ∀ y d' rest, p = some y → u ++ x :: '.' :: '.' :: d :: v = '.' :: d' :: rest → c ≠ '.' := by
      rintro y d' rest rfl e rfl
      apply h
      cases u with
      | nil =>
        injection e with e1 e2
        subst e1
        exact ⟨[], y, '.', ['.'], rfl⟩
      | cons c' u =>
        injection e with e1 e2
        subst e1
        cases u with
        | nil => exact ⟨[], y, x, _, rfl⟩
        | cons c'' u => exact ⟨[], y, c'', _, rfl⟩
    rw [List.cons_append, rangeLoop_copy hc, ih (p := some c)]
    · cases Bell.readChar x with
      | ok a =>
        rw [Out.ok_bind, Out.ok_bind]
        cases Bell.readChar d with
        | ok b =>
          rw [Out.ok_bind, Out.ok_bind]
          cases rangeLoop (some '.') (d :: v) <;> rfl
        | _ => rfl
      | _ => rfl
    · intro h'
      apply h
      have := hasRange_append (a := p.toList) (b := []) h'
      simpa using this

theorem readChar_dot : Bell.readChar '.' = .throw .bellInvalid := by decide

theorem rangeLoop_start {q d : Char} {v : Str} (h : d ≠ '.') : rangeLoop (some q) (d :: v) = rangeLoop none (d :: v) := by
  rw [rangeLoop_copy, rangeLoop_copy]
  · intro x d' rest e; cases e
  · intro _ _ _ _ _; exact h

/-- The first range. -/
theorem first_range {s : Str} (h : HasRange s) : ∃ u x d v, s = u ++ x :: '.' :: '.' :: d :: v ∧ ¬ HasRange (u ++ [x, '.', '.']) := by
  obtain ⟨u, x, d, v, hs⟩ := h
  induction hu : u.length using Nat.strong_induction_on generalizing u x d v with
  | _ n ih =>
    by_cases h : HasRange (u ++ [x, '.', '.'])
    · obtain ⟨u', x', d', v', e⟩ := h
      have hl := congrArg List.length e
      simp only [List.length_append, List.length_cons, List.length_nil] at hl
      refine ih u'.length (by omega) u' x' d' (v' ++ d :: v) ?_ rfl
      rw [hs, show u ++ x :: '.' :: '.' :: d :: v = (u ++ [x, '.', '.']) ++ d :: v by simp, e]
      simp
    · exact ⟨u, x, d, v, hs, h⟩

theorem rangeLoop_complete {s t : Str} (h : Unranged s t) : rangeLoop none s = .ok t := by
  induction h with
  | plain h => exact rangeLoop_none (p := none) h
  | @range u v t m p d a b h1 h2 h3 h4 _ ih =>
    have hd : d ≠ '.' := by rintro rfl; rw [readChar_dot] at h3; cases h3
    rw [rangeLoop_first (p := none) h1, h2, Out.ok_bind, h3, Out.ok_bind, rangeLoop_start hd, ih, Out.ok_bind,
      between_unique h4 (between_spec a b)]

theorem rangeLoop_cases (s : Str) : (∃ t, rangeLoop none s = .ok t ∧ Unranged s t) ∨ rangeLoop none s = .throw .bellInvalid := by
  induction hn : s.length using Nat.strong_induction_on generalizing s with
  | _ n ih =>
    by_cases h : HasRange s
    · obtain ⟨u, x, d, v, hs, h1⟩ := first_range h
      subst hs
      rw [rangeLoop_first (p := none) h1]
      rcases Bell.readChar_cases x with ⟨a, hx, -⟩ | hx
      · rw [hx, Out.ok_bind]
        rcases Bell.readChar_cases d with ⟨b, hd, -⟩ | hd
        · rw [hd, Out.ok_bind]
          have hdd : d ≠ '.' := by rintro rfl; rw [readChar_dot] at hd; cases hd
          rw [rangeLoop_start hdd]
          rcases ih (d :: v).length (by rw [← hn]; simp only [List.length_append, List.length_cons]; omega) (d :: v) rfl with ⟨t, h2, h3⟩ | h2
          · rw [h2, Out.ok_bind]
            exact .inl ⟨_, rfl, .range h1 hx hd (between_spec a b) h3⟩
          · rw [h2]; exact .inr rfl
        · rw [hd]; exact .inr rfl
      · rw [hx]; exact .inr rfl
    · exact .inl ⟨s, rangeLoop_none (p := none) h, .plain h⟩

theorem expandRanges_eq (s : Str) : expandRanges s = rangeLoop none s := by
  unfold expandRanges
  split
  · rename_i h
    refine (rangeLoop_none (p := none) ?_).symm
    rintro ⟨u, p, d, v, e⟩
    have := congrArg List.length e
    simp only [Option.toList_none, List.nil_append, List.length_append, List.length_cons] at this
    omega
  · rfl

theorem expandExprs_iff {bells : Int} {s t : Str} : expandExprs bells s = .ok t ↔ Stands bells s t := by
  unfold expandExprs
  constructor
  · intro h
    cases he : exprLoop bells s.length s with
    | ok u =>
      rw [he, Out.ok_bind, expandRanges_eq] at h
      rcases rangeLoop_cases u with ⟨t', h1, h2⟩ | h1
      · rw [h1] at h; cases h
        exact ⟨u, exprLoop_sound he, h2⟩
      · rw [h1] at h; cases h
    | _ => rw [he] at h; cases h
  · rintro ⟨u, h1, h2⟩
    rw [exprLoop_complete h1 (le_refl _), Out.ok_bind, expandRanges_eq, rangeLoop_complete h2]

theorem expandExprs_ends (bells : Int) (s : Str) : Answers (expandExprs bells s) := by
  unfold expandExprs
  refine ends_bind (exprLoop_ends bells _ s (le_refl _)) fun u _ => ?_
  rw [expandRanges_eq]
  rcases rangeLoop_cases u with ⟨t, h, -⟩ | h
  · exact .inl ⟨_, h⟩
  · exact .inr ⟨_, h⟩

end Ringing.Siril
