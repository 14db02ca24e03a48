import Verif.Props.MusicRuns
import Verif.Props.MsLibrary
import Verif.Model.NamedMusic
import Verif.Spec.NamedMusic
import Verif.Lemmas.NamedRows
/-! C66: named and scored music strings. -/
namespace Ringing
open Spec Lib
namespace Music

/-! ### Adding patterns -/

theorem pushBackC_info {m m' : Music} {s : List Char} {w : Nat} {sh sb : Int}
    (h : m.pushBackC ⟨⟨s, w⟩, 0, 0, sh, sb, []⟩ = .ok m') (hw : m.b = 0 → w = 0) :
    m'.info = m.info ++ [⟨⟨s, m.b⟩, 0, 0, sh, sb, []⟩] ∧ m'.b = m.b := by
  rw [pushBackC] at h
  obtain ⟨d, e1, h⟩ := Out.bind_eq_ok.1 h
  obtain ⟨t, e2, h⟩ := Out.bind_eq_ok.1 h
  injection h with h
  subst h
  refine ⟨?_, rfl⟩
  by_cases hb : m.b = 0
  · rw [if_neg (by simpa using hb)] at e1
    injection e1 with e1
    rw [← e1, hw hb, hb]
  · rw [if_pos hb, MusicDetails.checkBellsC, Wildcard.setBellsC, if_neg hb] at e1
    obtain ⟨x, e3, e1⟩ := Out.bind_eq_ok.1 e1
    obtain ⟨y, e4, e3⟩ := Out.bind_eq_ok.1 e3
    injection e3 with e3
    injection e1 with e1
    rw [← e1, ← e3]

theorem pushBackC_width {m : Music} (hb : m.b ≠ 0) (s : List Char) (w : Nat) (sh sb : Int) :
    m.pushBackC ⟨⟨s, w⟩, 0, 0, sh, sb, []⟩ = m.pushBackC ⟨⟨s, 0⟩, 0, 0, sh, sb, []⟩ := by
  unfold pushBackC MusicDetails.checkBellsC Wildcard.setBellsC
  simp only [if_pos hb, if_neg hb]

/-- A pattern as it is stored. -/
def stored (b : Nat) (sh sb : Int) (t : List Char) : MusicDetails := ⟨⟨t, b⟩, 0, 0, sh, sb, []⟩

theorem foldlM_info {b : Nat} (sh sb : Int) : ∀ {qs : List (List Tok)} {ts : List (List Char)} {m : Music} {ps},
    Reached b m ps → List.Forall₂ Spells qs ts → (∀ q ∈ qs, ∀ x ∈ named q, x < b) →
    ∃ m', ts.foldlM (fun m p => MusicDetails.newC p sh sb >>= fun d => m.pushBackC d) m = .ok m' ∧ Reached b m' (ps ++ qs) ∧
      m'.info = m.info ++ ts.map (stored b sh sb) ∧ (b ≠ 0 → m.appendC (ts.map (stored b sh sb)) = .ok m') := by
  intro qs
  induction qs with
  | nil =>
    intro ts m ps hR h _
    cases h
    exact ⟨m, rfl, by rw [List.append_nil]; exact hR, by simp, fun _ => rfl⟩
  | cons q qs ih =>
    intro ts m ps hR h hn
    cases h with
    | @cons _ t _ ts h1 h2 =>
      have hd := newC_spells h1 sh sb
      obtain ⟨m1, e1⟩ := (C42_push hR h1 hd).1.2 (Or.inr (hn q (by simp)))
      obtain ⟨m2, e2, hR2, i2, a2⟩ := ih (.push hR h1 hd e1) h2 (fun q hq => hn q (by simp [hq]))
      have hb := hR.inv.bells
      obtain ⟨i1, -⟩ := pushBackC_info e1 fun _ => rfl
      refine ⟨m2, ?_, by rw [List.append_assoc] at hR2; exact hR2, ?_, ?_⟩
      · rw [List.foldlM_cons, hd, Out.ok_bind, e1, Out.ok_bind]; exact e2
      · rw [i2, i1, hb]; simp [stored]
      · intro h0
        rw [List.map_cons, appendC, List.foldlM_cons, stored, pushBackC_width (by rw [hb]; exact h0), e1, Out.ok_bind]
        exact a2 h0

/-- What `add_named_music` has to do: the patterns are added with the scores. -/
def Added (b : Nat) (m : Music) (ps qs : List (List Tok)) (sh sb : Int) (m' : Music) : Prop :=
  Reached b m' (ps ++ qs) ∧ ∃ new, m'.info = m.info ++ new ∧ new.length = qs.length ∧
    ∀ (k : Nat) (d : MusicDetails) (q : List Tok), new[k]? = some d → qs[k]? = some q →
      Spells q d.pat.pat ∧ d.scoreh = sh ∧ d.scoreb = sb ∧ d.counth = 0 ∧ d.countb = 0

theorem added_of {b : Nat} {m m' : Music} {ps qs : List (List Tok)} {sh sb : Int} {ts : List (List Char)}
    (h : Reached b m' (ps ++ qs)) (hs : List.Forall₂ Spells qs ts) (hi : m'.info = m.info ++ ts.map (stored b sh sb)) :
    Added b m ps qs sh sb m' := by
  refine ⟨h, _, hi, by rw [List.length_map, hs.length_eq], ?_⟩
  intro k d q hd hq
  rw [List.getElem?_map] at hd
  cases ht : ts[k]? with
  | none => rw [ht] at hd; cases hd
  | some t =>
    rw [ht] at hd
    injection hd with hd
    subst hd
    refine ⟨?_, rfl, rfl, rfl, rfl⟩
    obtain ⟨h1, h2⟩ := List.getElem?_eq_some_iff.1 ht
    obtain ⟨h3, h4⟩ := List.getElem?_eq_some_iff.1 hq
    have := hs.get h3 h1
    simp only [List.get_eq_getElem] at this
    rw [h2, h4] at this
    exact this

theorem spells_row {r : List Nat} (h : ∀ x ∈ r, x < 33) : Spells (rowPattern r) (rowText r) := by
  induction r with
  | nil => exact .nil
  | cons x r ih => exact .bell (bellChar_toChar (h x (by simp))) (ih fun y hy => h y (by simp [hy]))

theorem named_row (r : List Nat) : named (rowPattern r) = r := by
  have := named_bells r []
  simpa [rowPattern, named] using this

theorem pushRow_added {b : Nat} (hb : b ≤ 33) {m : Music} {ps} (hR : Reached b m ps) (sh sb : Int) {r : List Nat} (h : ∀ x ∈ r, x < b) :
    ∃ m', m.pushRowC r sh sb = .ok m' ∧ Added b m ps [rowPattern r] sh sb m' := by
  have hs : List.Forall₂ Spells [rowPattern r] [rowText r] := .cons (spells_row fun x hx => lt_of_lt_of_le (h x hx) hb) .nil
  obtain ⟨m', e, hR', hi, -⟩ := foldlM_info sh sb hR hs (by
    intro q hq x hx
    rw [List.mem_singleton.1 hq, named_row] at hx
    exact h x hx)
  refine ⟨m', ?_, added_of hR' hs hi⟩
  rw [List.foldlM_cons] at e
  obtain ⟨m1, e1, e2⟩ := Out.bind_eq_ok.1 e
  injection e2 with e2
  rw [← e2]
  exact e1

theorem filter_even (b : Nat) : (List.range b).filter (fun x => decide (x % 2 = 0)) = (List.range ((b + 1) / 2)).map (2 * ·) ∧
    (List.range b).filter (fun x => decide (x % 2 = 1)) = (List.range (b / 2)).map (fun i => 2 * i + 1) := by
  induction b with
  | zero => simp
  | succ b ih =>
    rw [List.range_succ, List.filter_append, List.filter_append, ih.1, ih.2]
    rcases Nat.mod_two_eq_zero_or_one b with h | h
    · have e1 : (b + 1 + 1) / 2 = (b + 1) / 2 + 1 := by omega
      have e2 : (b + 1) / 2 = b / 2 := by omega
      rw [e1, e2, List.range_succ (n := b / 2)]
      simp [h]; omega
    · have e1 : (b + 1 + 1) / 2 = (b + 1) / 2 := by omega
      have e2 : (b + 1) / 2 = b / 2 + 1 := by omega
      rw [e1, e2, List.range_succ (n := b / 2)]
      simp [h]; omega

theorem queens_row (b : Nat) : ((List.range b).map fun i => if i < (b + 1) / 2 then 2 * i else 2 * (i - (b + 1) / 2) + 1) =
    (List.range b).filter (fun x => decide (x % 2 = 0)) ++ (List.range b).filter (fun x => decide (x % 2 = 1)) := by
  rw [(filter_even b).1, (filter_even b).2]
  apply List.ext_getElem
  · simp; omega
  · intro i h1 h2
    rw [List.getElem_append]
    simp only [List.length_map, List.length_range, List.getElem_map, List.getElem_range] at h1 ⊢
    split <;> rfl

theorem kings_row (b : Nat) : ((List.range b).map fun i => if i < (b + 1) / 2 then 2 * ((b + 1) / 2 - 1 - i) else 2 * (i - (b + 1) / 2) + 1) =
    ((List.range b).filter (fun x => decide (x % 2 = 0))).reverse ++ (List.range b).filter (fun x => decide (x % 2 = 1)) := by
  rw [(filter_even b).1, (filter_even b).2]
  apply List.ext_getElem
  · simp; omega
  · intro i h1 h2
    rw [List.getElem_append]
    simp only [List.length_map, List.length_range, List.getElem_map, List.getElem_range, List.length_reverse, List.getElem_reverse] at h1 ⊢
    split <;> rfl

theorem tittums_row {b : Nat} {r : List Nat} (hl : r.length = b) (h0 : ∀ i, 2 * i < b → r[2 * i]? = some i)
    (h1 : ∀ i, 2 * i + 1 < b → r[2 * i + 1]? = some ((b + 1) / 2 + i)) :
    r = (List.range b).map fun i => if i % 2 = 0 then i / 2 else (b + 1) / 2 + i / 2 := by
  apply List.ext_getElem?
  intro i
  by_cases hi : i < b
  · rw [List.getElem?_map, List.getElem?_range hi, Option.map_some]
    rcases Nat.mod_two_eq_zero_or_one i with h | h
    · have := h0 (i / 2) (by omega)
      rw [show 2 * (i / 2) = i by omega] at this
      rw [if_pos h, this]
    · have := h1 (i / 2) (by omega)
      rw [show 2 * (i / 2) + 1 = i by omega] at this
      rw [if_neg (by omega), this]
  · rw [List.getElem?_eq_none (by omega), List.getElem?_eq_none (by simp; omega)]

/-! ### The number -/

theorem strtol_spec {a sg ds r : Str} (ha : ∀ c ∈ a, Space c) (hn : ds ≠ []) (hd : ∀ c ∈ ds, Digit c) (hr : ∀ c, r.head? = some c → ¬ Digit c) :
    ((sg = [] ∨ sg = ['+']) → strtol (a ++ sg ++ ds ++ r) = (max (-2 ^ 63) (min (number ds : Int) (2 ^ 63 - 1)), r)) ∧
    (sg = ['-'] → strtol (a ++ sg ++ ds ++ r) = (max (-2 ^ 63) (min (-(number ds : Int)) (2 ^ 63 - 1)), r)) := by
  have hdd : ∀ c, (ds ++ r).head? = some c → Digit c := by
    intro c hc
    cases ds with
    | nil => exact absurd rfl hn
    | cons x ds => injection hc with hc; rw [← hc]; exact hd x (by simp)
  have nsp : ∀ c, Digit c → Bell.isSpace c = false ∧ c ≠ '+' ∧ c ≠ '-' := by
    intro c hc
    refine ⟨?_, ?_, ?_⟩
    · by_contra h
      rw [Bool.not_eq_false, isSpace_iff] at h
      rcases h with h | h | h | h | h | h <;> (subst h; revert hc; unfold Digit; decide)
    · rintro rfl; revert hc; unfold Digit; decide
    · rintro rfl; revert hc; unfold Digit; decide
  have e2 : (ds ++ r).takeWhile Bell.isDigit = ds ∧ (ds ++ r).dropWhile Bell.isDigit = r := by
    refine takeWhile_split (fun c hc => isDigit_iff.2 (hd c hc)) fun c hc => ?_
    have := hr c hc; rw [← isDigit_iff] at this; simpa using this
  have e1 : ∀ t : Str, (∀ c, t.head? = some c → Bell.isSpace c = false) → (a ++ t).dropWhile Bell.isSpace = t :=
    fun t ht => (takeWhile_split (fun c hc => isSpace_iff.2 (ha c hc)) ht).2
  have hplain : (a ++ (ds ++ r)).dropWhile Bell.isSpace = ds ++ r := e1 _ fun c hc => (nsp c (hdd c hc)).1
  have n1 : ¬ (ds ++ r).head? = some '-' := fun h => (nsp _ (hdd _ h)).2.2 rfl
  have n2 : ¬ (ds ++ r).head? = some '+' := fun h => (nsp _ (hdd _ h)).2.1 rfl
  refine ⟨?_, ?_⟩
  · rintro (rfl | rfl)
    · unfold strtol
      simp only [List.append_assoc, List.nil_append, hplain, n1, n2, or_self, if_false, e2.1, e2.2, hn, digitsValue_eq]
    · have : (a ++ ('+' :: (ds ++ r))).dropWhile Bell.isSpace = '+' :: (ds ++ r) := e1 _ fun c hc => by
        injection hc with hc; rw [← hc]; decide
      unfold strtol
      simp only [List.append_assoc, List.cons_append, List.nil_append, this, List.head?_cons, List.tail_cons, or_true, if_true, e2.1, e2.2, hn,
        if_false, digitsValue_eq]
      simp
  · rintro rfl
    have : (a ++ ('-' :: (ds ++ r))).dropWhile Bell.isSpace = '-' :: (ds ++ r) := e1 _ fun c hc => by
      injection hc with hc; rw [← hc]; decide
    unfold strtol
    simp only [List.append_assoc, List.cons_append, List.nil_append, this, List.head?_cons, List.tail_cons, true_or, if_true, e2.1, e2.2, hn,
      if_false, digitsValue_eq]

theorem runs_head : ∀ c, ("-runs".toList).head? = some c → ¬ Digit c := by
  intro c hc
  have : c = '-' := by
    have h : ("-runs".toList).head? = some '-' := by decide
    rw [h] at hc; injection hc with hc; exact hc.symm
  subst this
  unfold Digit; decide

theorem strtol_run {t : Str} {v : Int} (h : RunLength t v) : strtol t = (max (-2 ^ 63) (min v (2 ^ 63 - 1)), "-runs".toList) := by
  obtain ⟨a, sg, ds, rfl, ha, hn, hd, hv⟩ := h
  rcases hv with ⟨hs, rfl⟩ | ⟨hs, rfl⟩
  · exact (strtol_spec ha hn hd runs_head).1 hs
  · exact (strtol_spec ha hn hd runs_head).2 hs

theorem cStr_id {s : Str} (h : '\x00' ∉ s) : cStr s = s := by
  unfold cStr
  have := (takeWhile_split (p := fun x => decide (x ≠ '\x00')) (a := s) (b := []) (by
    intro c hc; simp; rintro rfl; exact h hc) (by simp)).1
  rwa [List.append_nil] at this

theorem runLength_nul {t : Str} {v : Int} (h : RunLength t v) : '\x00' ∉ t := by
  obtain ⟨a, sg, ds, rfl, ha, hn, hd, hv⟩ := h
  have z1 : '\x00' ∉ a := fun hc => by have := ha _ hc; revert this; unfold Space; decide
  have z3 : '\x00' ∉ ds := fun hc => by have := hd _ hc; revert this; unfold Digit; decide
  have z2 : '\x00' ∉ sg := by rcases hv with ⟨rfl | rfl, -⟩ | ⟨rfl, -⟩ <;> simp
  simp only [List.mem_append, not_or]
  exact ⟨⟨⟨z1, z2⟩, z3⟩, by decide⟩

theorem runLength_facts {t : Str} {v : Int} (h : RunLength t v) : 5 < t.length ∧ "-runs".toList <:+: t := by
  obtain ⟨a, sg, ds, rfl, ha, hn, hd, hv⟩ := h
  refine ⟨?_, ⟨a ++ sg ++ ds, [], by simp⟩⟩
  have := List.length_pos_of_ne_nil hn
  have e : "-runs".toList.length = 5 := by decide
  simp only [List.length_append, e]; omega

/-- The length of a run that is asked for. -/
theorem readLen_ok {b n : Nat} {p t : Str} (hp : '\x00' ∉ p) (h : RunLength t n) (h3 : 3 ≤ n) (hb : n ≤ b) (hb' : b ≤ 33) :
    readLen b p.length (p ++ t) = .ok n := by
  unfold readLen
  have e : (cStr (p ++ t)).drop p.length = t := by
    rw [cStr_id (by simp only [List.mem_append, not_or]; exact ⟨hp, runLength_nul h⟩), List.drop_left]
  simp only [e, strtol_run h, ne_eq, not_true, if_false]
  have e2 : i32 (max (-2 ^ 63) (min ((n : Nat) : Int) (2 ^ 63 - 1))) = n := by
    rw [min_eq_left (by omega), max_eq_right (by omega)]
    exact i32_id (by omega)
  rw [e2, if_neg (by omega), if_neg (by omega), Int.toNat_natCast]

/-! ### Names -/

theorem isRuns {n : Str} (h : "-runs".toList <:+: n) : hasRuns n = true := (isSome_findSub n 0).2 h

theorem append_added {b : Nat} {m c : Music} {ps qs : List (List Tok)} (hR : Reached b m ps) {sh sb : Int} {ts : List (List Char)}
    (e : ts.foldlM (fun m p => MusicDetails.newC p sh sb >>= fun d => m.pushBackC d) (Music.new b) = .ok c)
    (h : List.Forall₂ Spells qs ts) (hn : ∀ q ∈ qs, ∀ x ∈ named q, x < b) (h0 : b = 0 → qs = []) :
    ∃ m', m.appendC c.info = .ok m' ∧ Added b m ps qs sh sb m' := by
  obtain ⟨c', e', -, hi, -⟩ := foldlM_info sh sb (Reached.new (b := b)) h hn
  rw [e] at e'
  injection e' with e'
  subst e'
  obtain ⟨m', -, hR', hi', ha⟩ := foldlM_info sh sb hR h hn
  have hc : c.info = ts.map (stored b sh sb) := by rw [hi]; rfl
  rw [hc]
  by_cases hb : b = 0
  · obtain rfl := h0 hb
    cases h
    refine ⟨m, rfl, ?_⟩
    rw [List.map_nil, List.append_nil] at hi'
    exact ⟨by rw [List.append_nil]; exact hR, [], by simp, rfl, by simp⟩
  · exact ⟨m', ha hb, added_of hR' h hi'⟩

theorem names_ne : ∀ {t : Str} {v : Int}, RunLength t v → ∀ p : Str, (p ++ t ≠ "rounds".toList ∧ p ++ t ≠ "queens".toList ∧ p ++ t ≠ "kings".toList ∧
    p ++ t ≠ "tittums".toList ∧ p ++ t ≠ "reverse-rounds".toList ∧ p ++ t ≠ "CRUs".toList) := by
  intro t v h p
  have hi : "-runs".toList <:+: p ++ t := by
    obtain ⟨x, y, e⟩ := (runLength_facts h).2
    exact ⟨p ++ x, y, by rw [← e]; simp⟩
  have hf := isRuns hi
  refine ⟨?_, ?_, ?_, ?_, ?_, ?_⟩ <;> (intro e; rw [e] at hf; revert hf; decide)

theorem head_not {t : Str} {v : Int} (h : RunLength t v) : ∀ c, t.head? = some c → c ≠ 'f' ∧ c ≠ 'b' := by
  obtain ⟨a, sg, ds, rfl, ha, hn, hd, hv⟩ := h
  intro c hc
  have : Space c ∨ Digit c ∨ c = '+' ∨ c = '-' := by
    cases a with
    | cons x a => injection hc with hc; exact Or.inl (ha c (by simp [hc]))
    | nil =>
      have k : ∀ t : Str, (ds ++ t).head? = some c → Digit c := by
        intro t ht
        cases ds with
        | nil => exact absurd rfl hn
        | cons x ds => injection ht with ht; exact hd c (by simp [ht])
      rcases hv with ⟨rfl | rfl, -⟩ | ⟨rfl, -⟩
      · exact Or.inr (Or.inl (k _ hc))
      · injection hc with hc; exact Or.inr (Or.inr (Or.inl hc.symm))
      · injection hc with hc; exact Or.inr (Or.inr (Or.inr hc.symm))
  constructor <;> (rintro rfl; revert this; unfold Space Digit; decide)

theorem runToks_eq (b n : Nat) (pos : Pos) : runToks b n pos 0 =
    runPatterns b n (if pos = .front then [] else [.star]) (if pos = .back then [] else [.star]) := by
  unfold runToks runPatterns
  simp

theorem runs_added {b n : Nat} (hb : b ≤ 33) {m : Music} {ps} (hR : Reached b m ps) (sh sb : Int) (pos : Pos) (h3 : 3 ≤ n) (hn : n ≤ b) :
    ∃ m', (makeRunsC b n pos 0 sh sb >>= fun c => m.appendC c.info) = .ok m' ∧
      Added b m ps (runPatterns b n (if pos = .front then [] else [.star]) (if pos = .back then [] else [.star])) sh sb m' := by
  obtain ⟨ts, e, h, hx⟩ := runs_texts n hb pos 0 sh sb
  obtain ⟨c, ec, -⟩ := C42_runs (n := n) hb pos 0 sh sb
  rw [ec, Out.ok_bind, ← runToks_eq]
  exact append_added hR (e.symm.trans ec) h hx (by omega)

/-- C66: `add_named_music` adds the patterns that the name stands for, with the given scores and counts of 0, and
keeps the patterns there are. -/
theorem C66_named {b : Nat} (hb : b ≤ 33) {m : Music} {ps qs : List (List Tok)} (hR : Reached b m ps) {name : Str} (hn : NamedMusic b name qs) (sh sb : Int) :
    ∃ m', m.addNamedC name sh sb = .ok m' ∧ Added b m ps qs sh sb m' := by
  have hmb := hR.inv.bells
  have lt_of : ∀ (f : Nat → Nat), (∀ i, i < b → f i < b) → ∀ x ∈ (List.range b).map f, x < b := by
    intro f hf x hx
    obtain ⟨i, hi, rfl⟩ := List.mem_map.1 hx
    exact hf i (List.mem_range.1 hi)
  unfold addNamedC
  rw [hmb]
  cases hn with
  | rounds =>
    rw [if_pos rfl, Row.roundsC_eq (by omega)]
    exact pushRow_added hb hR sh sb fun x hx => List.mem_range.1 hx
  | queens =>
    rw [if_neg (by decide), if_pos rfl, Row.queensC_eq (by omega), Out.ok_bind, ← queens_row]
    exact pushRow_added hb hR sh sb (lt_of _ fun i hi => by split <;> omega)
  | kings =>
    rw [if_neg (by decide), if_neg (by decide), if_pos rfl, Row.kingsC_eq (by omega), Out.ok_bind, ← kings_row]
    exact pushRow_added hb hR sh sb (lt_of _ fun i hi => by split <;> omega)
  | @tittums r hl h0 h1 =>
    rw [if_neg (by decide), if_neg (by decide), if_neg (by decide), if_pos rfl, Row.tittumsC_eq (by omega), Out.ok_bind, ← tittums_row hl h0 h1]
    refine pushRow_added hb hR sh sb ?_
    rw [tittums_row hl h0 h1]
    exact lt_of _ fun i hi => by split <;> omega
  | reverse =>
    rw [if_neg (by decide), if_neg (by decide), if_neg (by decide), if_neg (by decide), if_pos rfl, Row.reverseRoundsC_eq (by omega), Out.ok_bind]
    have : (List.range b).reverse = (List.range b).map fun i => b - 1 - i := by
      apply List.ext_getElem
      · simp
      · intro i h1 h2; simp
    rw [this]
    exact pushRow_added hb hR sh sb (lt_of _ fun i hi => by omega)
  | crus =>
    rw [if_neg (by decide), if_neg (by decide), if_neg (by decide), if_neg (by decide), if_neg (by decide), if_pos rfl]
    obtain ⟨ts, e, h, hx⟩ := cru_texts hb sh sb
    obtain ⟨c, ec, -⟩ := C42_cru hb sh sb
    rw [ec, Out.ok_bind]
    exact append_added hR (e.symm.trans ec) h hx (by intro h0; unfold cruPatterns; rw [if_neg (by omega)])
  | @front t n ht h3 hnb =>
    obtain ⟨n1, n2, n3, n4, n5, n6⟩ := names_ne ht "front-".toList
    have hl := (runLength_facts ht).1
    have hi : hasRuns ("front-".toList ++ t) = true := isRuns (by
      obtain ⟨x, y, e⟩ := (runLength_facts ht).2
      exact ⟨"front-".toList ++ x, y, by rw [← e]; simp⟩)
    rw [if_neg n1, if_neg n2, if_neg n3, if_neg n4, if_neg n5, if_neg n6,
      if_pos ⟨by rw [List.length_append]; have : "front-".toList.length = 6 := by decide
                 omega, rfl, hi⟩]
    have e := readLen_ok (p := "front-".toList) (by decide) ht h3 hnb hb
    rw [show "front-".toList.length = 6 by decide] at e
    rw [e, Out.ok_bind]
    exact runs_added hb hR sh sb .front h3 hnb
  | @back t n ht h3 hnb =>
    obtain ⟨n1, n2, n3, n4, n5, n6⟩ := names_ne ht "back-".toList
    have hl := (runLength_facts ht).1
    have hi : hasRuns ("back-".toList ++ t) = true := isRuns (by
      obtain ⟨x, y, e⟩ := (runLength_facts ht).2
      exact ⟨"back-".toList ++ x, y, by rw [← e]; simp⟩)
    have n7 : ¬ ("back-".toList ++ t).take 6 = "front-".toList := by
      intro e
      have := congrArg List.head? e
      rw [List.head?_take] at this
      simp at this
    rw [if_neg n1, if_neg n2, if_neg n3, if_neg n4, if_neg n5, if_neg n6, if_neg (fun h => n7 h.2.1),
      if_pos ⟨by rw [List.length_append]; have : "back-".toList.length = 5 := by decide
                 omega, rfl, hi⟩]
    have e := readLen_ok (p := "back-".toList) (by decide) ht h3 hnb hb
    rw [show "back-".toList.length = 5 by decide] at e
    rw [e, Out.ok_bind]
    exact runs_added hb hR sh sb .back h3 hnb
  | @anywhere t n ht h3 hnb =>
    obtain ⟨n1, n2, n3, n4, n5, n6⟩ := names_ne ht []
    rw [List.nil_append] at n1 n2 n3 n4 n5 n6
    obtain ⟨hl, hi⟩ := runLength_facts ht
    have k : ∀ (j : Nat) (q : Str) c, q.head? = some c → (c = 'f' ∨ c = 'b') → name.take (j + 1) ≠ q := by
      intro j q c hq hc e
      have := congrArg List.head? e
      rw [List.head?_take, if_neg (by omega), hq] at this
      have := head_not ht c this
      rcases hc with rfl | rfl
      · exact this.1 rfl
      · exact this.2 rfl
    rw [if_neg n1, if_neg n2, if_neg n3, if_neg n4, if_neg n5, if_neg n6,
      if_neg (fun h => k 5 "front-".toList 'f' (by decide) (Or.inl rfl) h.2.1), if_neg (fun h => k 4 "back-".toList 'b' (by decide) (Or.inr rfl) h.2.1),
      if_pos ⟨hl, isRuns hi⟩]
    have e := readLen_ok (p := []) (by simp) ht h3 hnb hb
    rw [List.nil_append, List.length_nil] at e
    rw [e, Out.ok_bind]
    exact runs_added hb hR sh sb .anywhere h3 hnb

theorem takeWhile_mem {p : Char → Bool} {s : Str} {c : Char} (h : c ∈ s.takeWhile p) : p c = true := by
  induction s with
  | nil => simp at h
  | cons x s ih =>
    rw [List.takeWhile_cons] at h
    by_cases hx : p x = true
    · rw [if_pos hx] at h
      rcases List.mem_cons.1 h with rfl | h'
      · exact hx
      · exact ih h'
    · rw [if_neg hx] at h; simp at h

theorem strtol_inv {t : Str} (h5 : 5 < t.length) (h : (strtol t).2 = "-runs".toList) :
    ∃ v : Int, RunLength t v ∧ (strtol t).1 = max (-2 ^ 63) (min v (2 ^ 63 - 1)) := by
  obtain ⟨w, hw⟩ : ∃ w, w = t.dropWhile Bell.isSpace := ⟨_, rfl⟩
  obtain ⟨u, hu⟩ : ∃ u, u = (if w.head? = some '-' ∨ w.head? = some '+' then w.tail else w) := ⟨_, rfl⟩
  obtain ⟨ds, hds⟩ : ∃ ds, ds = u.takeWhile Bell.isDigit := ⟨_, rfl⟩
  have ht : t = t.takeWhile Bell.isSpace ++ w := by rw [hw, List.takeWhile_append_dropWhile]
  have hud : u = ds ++ u.dropWhile Bell.isDigit := by rw [hds, List.takeWhile_append_dropWhile]
  by_cases hn : ds = []
  · exfalso
    unfold strtol at h
    simp only [← hw, ← hu, ← hds, hn, if_true] at h
    rw [h] at h5
    revert h5; decide
  · have hrest : u.dropWhile Bell.isDigit = "-runs".toList := by
      unfold strtol at h
      simp only [← hw, ← hu, ← hds, hn, if_false] at h
      exact h
    have key : ∃ v : Int, RunLength t v := by
      have ha : ∀ c ∈ t.takeWhile Bell.isSpace, Space c := fun c hc => isSpace_iff.1 (by
        have := takeWhile_mem hc; exact this)
      have hd : ∀ c ∈ ds, Digit c := fun c hc => isDigit_iff.1 (by rw [hds] at hc; have := takeWhile_mem hc; exact this)
      rw [hrest] at hud
      cases w with
      | nil =>
        simp at hu
        rw [hu] at hud
        have := congrArg List.length hud
        simp at this
      | cons c w =>
        by_cases hm : c = '-'
        · subst hm
          simp at hu
          exact ⟨_, _, ['-'], ds, by rw [List.append_assoc, List.append_assoc, ← hud, hu]; exact ht, ha, hn, hd, Or.inr ⟨rfl, rfl⟩⟩
        · by_cases hp : c = '+'
          · subst hp
            simp at hu
            exact ⟨_, _, ['+'], ds, by rw [List.append_assoc, List.append_assoc, ← hud, hu]; exact ht, ha, hn, hd, Or.inl ⟨Or.inr rfl, rfl⟩⟩
          · simp [hm, hp] at hu
            exact ⟨_, _, [], ds, by rw [List.append_assoc, List.append_assoc, ← hud, hu]; exact ht, ha, hn, hd, Or.inl ⟨Or.inl rfl, rfl⟩⟩
    obtain ⟨v, hv⟩ := key
    exact ⟨v, hv, by rw [strtol_run hv]⟩

/-- No number in the text is 2^31 or more. -/
def SmallNumbers (s : Str) : Prop := ∀ ds : Str, ds <:+: s → (∀ c ∈ ds, Digit c) → number ds < 2 ^ 31

theorem readLen_bad {b : Nat} {p t : Str} (h0 : '\x00' ∉ p ++ t) (h5 : 5 < t.length) (hs : SmallNumbers t)
    (h : ∀ n : Nat, RunLength t n → 3 ≤ n → ¬ n ≤ b) : readLen b p.length (p ++ t) = .throw .invalidArgument := by
  unfold readLen
  rw [cStr_id h0, List.drop_left]
  by_cases e : (strtol t).2 = "-runs".toList
  · obtain ⟨v, hv, hx⟩ := strtol_inv h5 e
    have hv' := hv
    obtain ⟨a, sg, ds, ht, ha, hn, hd, hsv⟩ := hv'
    have hlt := hs ds ⟨a ++ sg, "-runs".toList, ht.symm⟩ hd
    have hr : -2147483648 ≤ v ∧ v < 2147483648 := by rcases hsv with ⟨-, rfl⟩ | ⟨-, rfl⟩ <;> omega
    have hi : i32 (strtol t).1 = v := by
      rw [hx, min_eq_left (by omega), max_eq_right (by omega)]
      exact i32_id hr
    simp only [e, ne_eq, not_true, if_false, hi]
    by_cases h1 : v > b
    · rw [if_pos h1]
    · by_cases h2 : v < 3
      · rw [if_neg h1, if_pos h2]
      · exfalso
        obtain ⟨n, rfl⟩ := Int.eq_ofNat_of_zero_le (show 0 ≤ v by omega)
        exact h n hv (by omega) (by omega)
  · simp only [ne_eq, e, not_false_eq_true, if_true]

theorem tittums_exists {b : Nat} : ∃ r : List Nat, r.length = b ∧ (∀ i, 2 * i < b → r[2 * i]? = some i) ∧
    ∀ i, 2 * i + 1 < b → r[2 * i + 1]? = some ((b + 1) / 2 + i) := by
  refine ⟨(List.range b).map fun i => if i % 2 = 0 then i / 2 else (b + 1) / 2 + i / 2, by simp, ?_, ?_⟩
  · intro i hi; rw [List.getElem?_map, List.getElem?_range hi, Option.map_some, if_pos (by omega)]; simp
  · intro i hi; rw [List.getElem?_map, List.getElem?_range hi, Option.map_some, if_neg (by omega)]; congr 2; omega

/-- C66: any other name throws, if the numbers in it are less than 2^31. -/
theorem C66_unknown {b : Nat} {m : Music} {ps : List (List Tok)} (hR : Reached b m ps) {name : Str} (h0 : '\x00' ∉ name)
    (hs : SmallNumbers name) (hn : ¬ ∃ qs, NamedMusic b name qs) (sh sb : Int) : m.addNamedC name sh sb = .throw .invalidArgument := by
  have hmb := hR.inv.bells
  have n1 : name ≠ "rounds".toList := fun e => hn ⟨_, by rw [e]; exact .rounds⟩
  have n2 : name ≠ "queens".toList := fun e => hn ⟨_, by rw [e]; exact .queens⟩
  have n3 : name ≠ "kings".toList := fun e => hn ⟨_, by rw [e]; exact .kings⟩
  have n4 : name ≠ "tittums".toList := fun e => by
    obtain ⟨r, h1, h2, h3⟩ := tittums_exists (b := b)
    exact hn ⟨_, by rw [e]; exact .tittums h1 h2 h3⟩
  have n5 : name ≠ "reverse-rounds".toList := fun e => hn ⟨_, by rw [e]; exact .reverse⟩
  have n6 : name ≠ "CRUs".toList := fun e => hn ⟨_, by rw [e]; exact .crus⟩
  have sub : ∀ k, SmallNumbers (name.drop k) := fun k ds h hd => hs ds (h.trans (List.drop_suffix k name).isInfix) hd
  unfold addNamedC
  rw [if_neg n1, if_neg n2, if_neg n3, if_neg n4, if_neg n5, if_neg n6, hmb]
  by_cases c1 : name.length > 11 ∧ name.take 6 = "front-".toList ∧ hasRuns name
  · rw [if_pos c1]
    have e : name = "front-".toList ++ name.drop 6 := by rw [← c1.2.1, List.take_append_drop]
    have := readLen_bad (b := b) (p := "front-".toList) (t := name.drop 6) (by rw [← e]; exact h0) (by rw [List.length_drop]; omega) (sub 6)
      fun n h1 h2 h3 => hn ⟨_, by rw [e]; exact .front h1 h2 h3⟩
    rw [← e, show "front-".toList.length = 6 by decide] at this
    rw [this]; rfl
  rw [if_neg c1]
  by_cases c2 : name.length > 10 ∧ name.take 5 = "back-".toList ∧ hasRuns name
  · rw [if_pos c2]
    have e : name = "back-".toList ++ name.drop 5 := by rw [← c2.2.1, List.take_append_drop]
    have := readLen_bad (b := b) (p := "back-".toList) (t := name.drop 5) (by rw [← e]; exact h0) (by rw [List.length_drop]; omega) (sub 5)
      fun n h1 h2 h3 => hn ⟨_, by rw [e]; exact .back h1 h2 h3⟩
    rw [← e, show "back-".toList.length = 5 by decide] at this
    rw [this]; rfl
  rw [if_neg c2]
  by_cases c3 : name.length > 5 ∧ hasRuns name
  · rw [if_pos c3]
    have := readLen_bad (b := b) (p := []) (t := name) (by simpa using h0) c3.1 hs fun n h1 h2 h3 => hn ⟨_, .anywhere h1 h2 h3⟩
    rw [List.nil_append, List.length_nil] at this
    rw [this]; rfl
  rw [if_neg c3]

theorem bellChar_inj {c : Char} {a b : Nat} (h : BellChar c a) (h' : BellChar c b) : a = b := by
  have h1 := (bellChar h).2.1
  rw [(bellChar h').2.1] at h1
  injection h1 with h1; exact h1.symm

theorem set_inj : ∀ {cs cs' : Str} {l l' : List Nat} {s s' : Str}, List.Forall₂ BellChar cs l → List.Forall₂ BellChar cs' l' →
    cs ++ ']' :: s = cs' ++ ']' :: s' → l = l' ∧ s = s' := by
  have nb : ∀ b, ¬ BellChar ']' b := fun b h => (bellChar h).2.2.1 (by unfold Special; simp)
  intro cs
  induction cs with
  | nil =>
    intro cs' l l' s s' h h' e
    cases h
    cases h' with
    | nil => injection e with _ e; exact ⟨rfl, e⟩
    | cons h1 _ => injection e with e _; exact absurd h1 (e ▸ nb _)
  | cons c cs ih =>
    intro cs' l l' s s' h h' e
    cases h with
    | cons h1 h2 =>
      cases h' with
      | nil => injection e with e _; exact absurd h1 (e ▸ nb _)
      | cons h3 h4 =>
        injection e with e1 e2
        subst e1
        obtain ⟨r1, r2⟩ := ih h2 h4 e2
        exact ⟨by rw [bellChar_inj h1 h3, r1], r2⟩

theorem spells_inj {p q : List Tok} {s : Str} (h : Spells p s) (h' : Spells q s) : p = q := by
  have nb : ∀ {c b}, BellChar c b → ¬ Special c := fun h => (bellChar h).2.2.1
  induction h generalizing q with
  | nil => cases h'; rfl
  | bell hb _ ih =>
    cases h' with
    | bell hb' h2 => rw [bellChar_inj hb hb', ih h2]
    | any _ => exact absurd (by unfold Special; simp) (nb hb)
    | set _ _ => exact absurd (by unfold Special; simp) (nb hb)
    | star _ => exact absurd (by unfold Special; simp) (nb hb)
  | any _ ih =>
    cases h' with
    | bell hb' h2 => exact absurd (by unfold Special; simp) (nb hb')
    | any h2 => rw [ih h2]
  | star _ ih =>
    cases h' with
    | bell hb' h2 => exact absurd (by unfold Special; simp) (nb hb')
    | star h2 => rw [ih h2]
  | @set cs l p s hl _ ih =>
    generalize e : '[' :: (cs ++ ']' :: s) = t at h'
    cases h' with
    | nil => cases e
    | bell hb' h2 => injection e with e _; exact absurd (by unfold Special; simp [← e]) (nb hb')
    | any h2 => injection e with e _; cases e
    | star h2 => injection e with e _; cases e
    | @set cs' l' p' s' hl' h2 =>
      injection e with _ e
      obtain ⟨r1, r2⟩ := set_inj hl hl' e
      subst r2
      rw [r1, ih h2]

/-- C66: a name stands for one list of patterns. -/
theorem C66_unique {b : Nat} (hb : b ≤ 33) {name : Str} {qs qs' : List (List Tok)} (h : NamedMusic b name qs) (h' : NamedMusic b name qs') :
    qs = qs' := by
  have k : ∀ {qs₁ qs₂ : List (List Tok)}, qs₁.length = qs₂.length →
      (∀ (k : Nat) (q q' : List Tok), qs₁[k]? = some q → qs₂[k]? = some q' → q = q') → qs₁ = qs₂ := by
    intro qs₁ qs₂ hl h
    apply List.ext_getElem hl
    intro i h1 h2
    exact h i _ _ (List.getElem?_eq_getElem h1) (List.getElem?_eq_getElem h2)
  obtain ⟨m₁, e₁, -, new₁, i₁, l₁, f₁⟩ := C66_named hb Reached.new h 1 1
  obtain ⟨m₂, e₂, -, new₂, i₂, l₂, f₂⟩ := C66_named hb Reached.new h' 1 1
  rw [e₁] at e₂
  injection e₂ with e₂
  subst e₂
  rw [i₁] at i₂
  have : new₁ = new₂ := List.append_cancel_left i₂
  subst this
  refine k (by omega) ?_
  intro k q q' hq hq'
  have hk : k < new₁.length := by rw [l₁]; exact (List.getElem?_eq_some_iff.1 hq).1
  exact spells_inj (f₁ k _ q (List.getElem?_eq_getElem hk) hq).1 (f₂ k _ q' (List.getElem?_eq_getElem hk) hq').1

/-! ### Scores -/

theorem scan_cons (pattern : Str) (c : Char) (cs : Str) (j : Nat) (comma : Option Nat) (sh sb : Int) :
    scanScores pattern (c :: cs) j comma sh sb =
    if c = ':' then
      match comma with
      | none => Lib.atoi (Lib.cStr pattern) >>= fun v => .ok (v, v, pattern.drop (j + 1))
      | some k => Lib.atoi (Lib.cStr ((pattern.drop (k + 1)).take (j - k - 1))) >>= fun v => .ok (sh, v, pattern.drop (j + 1))
    else if c = ',' then
      if comma ≠ none then .throw .runtimeError
      else Lib.atoi (Lib.cStr pattern) >>= fun v => scanScores pattern cs (j + 1) (some j) v sb
    else if !Bell.isDigit c ∧ c ≠ '-' then .ok (sh, sb, pattern)
    else scanScores pattern cs (j + 1) comma sh sb := by
  rw [scanScores.eq_def]
  rfl

theorem scan_chars (whole : Str) {w : Str} (hw : ∀ c ∈ w, ScoreChar c) (rest : Str) (comma : Option Nat) (sh sb : Int) :
    ∀ j, scanScores whole (w ++ rest) j comma sh sb = scanScores whole rest (j + w.length) comma sh sb := by
  induction w with
  | nil => intro j; rfl
  | cons c w ih =>
    intro j
    have hc := hw c (by simp)
    have h1 : c ≠ ':' := by rintro rfl; revert hc; unfold ScoreChar Digit; decide
    have h2 : c ≠ ',' := by rintro rfl; revert hc; unfold ScoreChar Digit; decide
    have h3 : ¬ ((!Bell.isDigit c) = true ∧ c ≠ '-') := by
      rintro ⟨h3, h4⟩
      rcases hc with h | h
      · rw [isDigit_iff.2 h] at h3; cases h3
      · exact h4 h
    rw [List.cons_append, scan_cons, if_neg h1, if_neg h2, if_neg h3, ih (fun c hc => hw c (by simp [hc]))]
    congr 1
    rw [List.length_cons]; omega

theorem leadingInt_append {w : Str} {v : Int} (h : LeadingInt w v) {c : Char} (h1 : ¬ Digit c) (h2 : ¬ Space c) (h3 : c ≠ '+') (h4 : c ≠ '-') (r : Str) :
    LeadingInt (w ++ c :: r) v := by
  obtain ⟨a, sg, ds, t, rfl, ha, hn, hd, hr, hv, hb⟩ := h
  have hd1 : ∀ {l : Str} {x : Char} {P : Char → Prop}, (∀ x, l.head? = some x → P x) → P c → (l ++ c :: r).head? = some x → P x := by
    intro l x P hl hc hx
    cases l with
    | nil => injection hx with hx; rw [← hx]; exact hc
    | cons y l => exact hl x hx
  refine ⟨a, sg, ds, t ++ c :: r, by simp, ha, ?_, hd, ?_, ?_, hb⟩
  · intro x hx
    have e : sg ++ (ds ++ (t ++ c :: r)) = (sg ++ (ds ++ t)) ++ c :: r := by simp
    rw [e] at hx
    exact hd1 (P := fun x => ¬ Space x) hn h2 hx
  · intro x hx; exact hd1 (P := fun x => ¬ Digit x) hr h1 hx
  · rcases hv with ⟨e, h, hv⟩ | h | h
    · refine Or.inl ⟨e, ?_, hv⟩
      intro x hx
      have e : ds ++ (t ++ c :: r) = (ds ++ t) ++ c :: r := by simp
      rw [e] at hx
      exact hd1 (P := fun x => x ≠ '+' ∧ x ≠ '-') h ⟨h3, h4⟩ hx
    · exact Or.inr (Or.inl h)
    · exact Or.inr (Or.inr h)

theorem colon_facts : ¬ Digit ':' ∧ ¬ Space ':' ∧ ¬ Digit ',' ∧ ¬ Space ',' := by unfold Digit Space; decide

theorem scores_start {s : Str} {c : Char} (h : s.head? = some c) (hc : ScoreChar c) (hl : 2 < s.length) : scoresC s = scanScores s s 0 none 1 1 := by
  cases s with
  | nil => cases h
  | cons x s =>
    injection h with h
    subst h
    have hd : Bell.isDigit x = true ∨ x = '+' ∨ x = '-' := by
      rcases hc with h | h
      · exact Or.inl (isDigit_iff.2 h)
      · exact Or.inr (Or.inr h)
    rw [scoresC, if_pos ⟨hl, hd⟩]

theorem head_score {w r : Str} (hn : w ≠ []) (hw : ∀ c ∈ w, ScoreChar c) : ∃ c, (w ++ r).head? = some c ∧ ScoreChar c := by
  cases w with
  | nil => exact absurd rfl hn
  | cons c w => exact ⟨c, rfl, hw c (by simp)⟩

theorem scoresC_spec {s pat : Str} {h b : Int} (hS : Scored s h b pat) : scoresC s = .ok (h, b, pat) := by
  obtain ⟨k1, k2, k3, k4⟩ := colon_facts
  cases hS with
  | @both w pat v hn hw hv hl =>
    obtain ⟨c, hc, hc'⟩ := head_score (r := ':' :: pat) hn hw
    rw [scores_start hc hc' hl, scan_chars _ hw, scan_cons, if_pos rfl]
    simp only [atoi_spec (leadingInt_append hv k1 k2 (by decide) (by decide) pat), Out.ok_bind, Nat.zero_add]
    have e : (w ++ ':' :: pat).drop (w.length + 1) = pat := by simp
    rw [e]
  | @each w w' pat v v' hn hw hw' hv hv' =>
    obtain ⟨c, hc, hc'⟩ := head_score (r := ',' :: (w' ++ ':' :: pat)) hn hw
    have hl : 2 < (w ++ ',' :: (w' ++ ':' :: pat)).length := by
      have := List.length_pos_of_ne_nil hn
      simp; omega
    have e1 : ((w ++ ',' :: (w' ++ ':' :: pat)).drop (w.length + 1)) = w' ++ ':' :: pat := by simp
    rw [scores_start hc hc' hl, scan_chars _ hw, scan_cons, if_neg (by decide), if_pos rfl, if_neg (by simp),
      atoi_spec (leadingInt_append hv k3 k4 (by decide) (by decide) _), Out.ok_bind, scan_chars _ hw', scan_cons, if_pos rfl]
    simp only [Nat.zero_add, e1]
    have e2 : w.length + 1 + w'.length - w.length - 1 = w'.length := by omega
    have e3 : (w ++ ',' :: (w' ++ ':' :: pat)).drop (w.length + 1 + w'.length + 1) = pat := by
      rw [Nat.add_assoc (w.length + 1), ← List.drop_drop, e1]; simp
    rw [e2, e3, List.take_left, atoi_spec hv', Out.ok_bind]
  | @alone w pat hw hp =>
    by_cases hl : 2 < (w ++ pat).length
    · by_cases hn : w = []
      · subst hn
        rw [List.nil_append] at hl ⊢
        cases pat with
        | nil => simp at hl
        | cons c pat =>
          have hc := (hp c rfl).1
          have hd : ¬ Bell.isDigit c = true := fun h => hc (Or.inl (isDigit_iff.1 h))
          by_cases hpl : c = '+'
          · subst hpl
            rw [scoresC, if_pos ⟨hl, Or.inr (Or.inl rfl)⟩, scan_cons, if_neg (by decide), if_neg (by decide), if_pos (by decide)]
          · rw [scoresC, if_neg]
            rintro ⟨-, h | h | h⟩
            · exact hd h
            · exact hpl h
            · exact hc (Or.inr h)
      · obtain ⟨c, hc, hc'⟩ := head_score (r := pat) hn hw
        rw [scores_start hc hc' hl, scan_chars _ hw]
        cases pat with
        | nil => rw [scanScores]
        | cons c pat =>
          obtain ⟨h1, h2⟩ := hp c rfl
          have hd : Bell.isDigit c = false := by
            by_contra h; rw [Bool.not_eq_false] at h; exact h1 (Or.inl (isDigit_iff.1 h))
          rw [scan_cons, if_neg (h2 hn).1, if_neg (h2 hn).2, if_pos ⟨by rw [hd]; rfl, fun h => h1 (Or.inr h)⟩]
    · cases h : w ++ pat with
      | nil => rfl
      | cons c t => rw [h] at hl; rw [scoresC, if_neg (fun h => hl h.1)]
  | short hl =>
    cases s with
    | nil => rfl
    | cons c t => rw [scoresC, if_neg (fun h => by omega)]

/-- C66: `add_scored_music_string` reads the scores before the colon; the pattern is then added with them, by its
name if it is in angle brackets. -/
theorem C66_score (m : Music) {s pat : Str} {h b : Int} (hS : Scored s h b pat) :
    (∀ n : Str, n ≠ [] → pat = '<' :: (n ++ ['>']) → m.addScoredC s = m.addNamedC n h b) ∧
    ((¬ ∃ n : Str, n ≠ [] ∧ pat = '<' :: (n ++ ['>'])) → m.addScoredC s = MusicDetails.newC pat h b >>= fun d => m.pushBackC d) := by
  unfold addScoredC
  rw [scoresC_spec hS, Out.ok_bind]
  dsimp only
  refine ⟨?_, ?_⟩
  · rintro n hn rfl
    have := List.length_pos_of_ne_nil hn
    have e : ('<' :: (n ++ ['>'])).getLast? = some '>' := by
      rw [← List.cons_append, List.getLast?_append]; rfl
    rw [if_pos ⟨by simp; omega, rfl, e⟩]
    congr 1
    simp
  · intro hn
    rw [if_neg]
    rintro ⟨h1, h2, h3⟩
    cases pat with
    | nil => cases h2
    | cons c t =>
      injection h2 with h2
      subst h2
      obtain ⟨u, e⟩ := List.getLast?_eq_some_iff.1 h3
      cases u with
      | nil => rw [e] at h1; simp at h1
      | cons c u =>
        injection e with e1 e2
        refine hn ⟨u, ?_, by rw [e2]; rfl⟩
        rintro rfl
        rw [e2] at h1; simp at h1

theorem spells_chars {p : List Tok} {s : Str} (h : Spells p s) : ',' ∉ s := by
  have nb : ∀ b, ¬ BellChar ',' b := by
    intro b h
    have := (bellChar h).1
    revert this; decide
  induction h with
  | nil => simp
  | bell hb _ ih => simp only [List.mem_cons, not_or]; exact ⟨fun e => nb _ (e ▸ hb), ih⟩
  | any _ ih => simp only [List.mem_cons, not_or]; exact ⟨by decide, ih⟩
  | star _ ih => simp only [List.mem_cons, not_or]; exact ⟨by decide, ih⟩
  | @set cs l p s hl _ ih =>
    simp only [List.mem_cons, List.mem_append, not_or]
    refine ⟨by decide, ?_, by decide, ih⟩
    clear ih
    induction hl with
    | nil => simp
    | cons hb _ ih => simp only [List.mem_cons, not_or]; exact ⟨fun e => nb _ (e ▸ hb), ih⟩

/-- C66: scores with two commas, or with a comma and no colon behind them, throw. -/
theorem C66_commas (m : Music) {w w' r : Str} (hn : w ≠ []) (hw : ∀ c ∈ w, ScoreChar c) (hw' : ∀ c ∈ w', ScoreChar c) {v : Int}
    (hv : LeadingInt w v) :
    m.addScoredC (w ++ ',' :: (w' ++ ',' :: r)) = .throw .runtimeError ∧
    ((∀ c, r.head? = some c → ¬ ScoreChar c ∧ c ≠ ':' ∧ c ≠ ',') → '\x00' ∉ r → m.addScoredC (w ++ ',' :: (w' ++ r)) = .throw .invalidArgument) := by
  obtain ⟨k1, k2, k3, k4⟩ := colon_facts
  have hpos := List.length_pos_of_ne_nil hn
  refine ⟨?_, ?_⟩
  · obtain ⟨c, hc, hc'⟩ := head_score (r := ',' :: (w' ++ ',' :: r)) hn hw
    unfold addScoredC
    rw [scores_start hc hc' (by simp; omega), scan_chars _ hw, scan_cons, if_neg (by decide), if_pos rfl, if_neg (by simp),
      atoi_spec (leadingInt_append hv k3 k4 (by decide) (by decide) _), Out.ok_bind, scan_chars _ hw', scan_cons, if_neg (by decide),
      if_pos rfl, if_pos (by simp)]
    rfl
  · intro hr h0
    obtain ⟨c, hc, hc'⟩ := head_score (r := ',' :: (w' ++ r)) hn hw
    have key : ∃ h b, scoresC (w ++ ',' :: (w' ++ r)) = .ok (h, b, w ++ ',' :: (w' ++ r)) := by
      by_cases hl : 2 < (w ++ ',' :: (w' ++ r)).length
      · rw [scores_start hc hc' hl, scan_chars _ hw, scan_cons, if_neg (by decide), if_pos rfl, if_neg (by simp),
          atoi_spec (leadingInt_append hv k3 k4 (by decide) (by decide) _), Out.ok_bind, scan_chars _ hw']
        cases r with
        | nil => exact ⟨_, _, by rw [scanScores]⟩
        | cons c r =>
          obtain ⟨h1, h2, h3⟩ := hr c rfl
          have hd : Bell.isDigit c = false := by
            by_contra h; rw [Bool.not_eq_false] at h; exact h1 (Or.inl (isDigit_iff.1 h))
          exact ⟨_, _, by rw [scan_cons, if_neg h2, if_neg h3, if_pos ⟨by rw [hd]; rfl, fun h => h1 (Or.inr h)⟩]⟩
      · exact ⟨_, _, scoresC_spec (.short (by omega))⟩
    obtain ⟨h, b, e⟩ := key
    have z : ∀ {u : Str}, (∀ c ∈ u, ScoreChar c) → '\x00' ∉ u := fun hu hc => by
      have := hu _ hc; revert this; unfold ScoreChar Digit; decide
    have hnul : '\x00' ∉ w ++ ',' :: (w' ++ r) := by
      simp only [List.mem_append, List.mem_cons, not_or]
      exact ⟨z hw, by decide, z hw', h0⟩
    unfold addScoredC
    rw [e, Out.ok_bind]
    dsimp only
    rw [if_neg, (C42_valid _ hnul h b).2]
    · rfl
    · rintro ⟨p, hp⟩
      exact spells_chars hp (by simp)
    · rintro ⟨-, h2, -⟩
      rw [hc] at h2
      injection h2 with h2
      subst h2
      revert hc'; unfold ScoreChar Digit; decide

theorem leadingInt_exists {w : Str} (hw : ∀ c ∈ w, ScoreChar c) (hs : SmallNumbers w) : ∃ v, LeadingInt w v := by
  have nsp : ∀ {c}, ScoreChar c → ¬ Space c := by
    rintro c (h | h) hsp
    · rcases hsp with rfl | rfl | rfl | rfl | rfl | rfl <;> (revert h; unfold Digit; decide)
    · subst h; revert hsp; unfold Space; decide
  have hsp : ∀ {u : Str}, (∀ c ∈ u, ScoreChar c) → ∀ c, u.head? = some c → ¬ Space c := fun hu c hc =>
    nsp (hu c (List.mem_of_mem_head? hc))
  have split : ∀ u : Str, u = u.takeWhile Bell.isDigit ++ u.dropWhile Bell.isDigit ∧ (∀ c ∈ u.takeWhile Bell.isDigit, Digit c) ∧
      (∀ c, (u.dropWhile Bell.isDigit).head? = some c → ¬ Digit c) := by
    intro u
    refine ⟨(List.takeWhile_append_dropWhile).symm, fun c hc => isDigit_iff.1 (takeWhile_mem hc), ?_⟩
    intro c hc hd
    have := List.head?_dropWhile_not Bell.isDigit u
    rw [hc] at this
    dsimp only at this
    rw [isDigit_iff.2 hd] at this
    cases this
  by_cases hm : w.head? = some '-'
  · cases w with
    | nil => cases hm
    | cons c w =>
      injection hm with hm
      subst hm
      obtain ⟨e, h1, h2⟩ := split w
      have hlt := hs (w.takeWhile Bell.isDigit) ((List.takeWhile_prefix _).isInfix.trans (List.suffix_cons _ _).isInfix) h1
      refine ⟨-(number (w.takeWhile Bell.isDigit) : Int), [], ['-'], w.takeWhile Bell.isDigit, w.dropWhile Bell.isDigit, ?_, by simp, ?_, h1, h2,
        Or.inr (Or.inr ⟨rfl, rfl⟩), by omega, by omega⟩
      · rw [← e]; rfl
      · rw [← e]; exact hsp hw
  · obtain ⟨e, h1, h2⟩ := split w
    have hlt := hs (w.takeWhile Bell.isDigit) (List.takeWhile_prefix _).isInfix h1
    refine ⟨number (w.takeWhile Bell.isDigit), [], [], w.takeWhile Bell.isDigit, w.dropWhile Bell.isDigit, by simp, by simp, ?_, h1, h2,
      Or.inl ⟨rfl, ?_, rfl⟩, by omega, by omega⟩
    · rw [List.nil_append, ← e]; exact hsp hw
    · rw [← e]
      intro c hc
      refine ⟨?_, by rintro rfl; exact hm hc⟩
      rintro rfl
      have := hw _ (List.mem_of_mem_head? hc)
      revert this; unfold ScoreChar Digit; decide

/-- C66: these are all the cases, if no number is 2^31 or more. -/
theorem C66_score_cases (s : Str) (hs : SmallNumbers s) : (∃ h b pat, Scored s h b pat) ∨
    ∃ w w' r, s = w ++ ',' :: (w' ++ r) ∧ w ≠ [] ∧ (∀ c ∈ w, ScoreChar c) ∧ (∀ c ∈ w', ScoreChar c) ∧ (∃ v, LeadingInt w v) ∧
      ∀ c, r.head? = some c → ¬ ScoreChar c ∧ c ≠ ':' := by
  have split : ∀ u : Str, ∃ w r, u = w ++ r ∧ (∀ c ∈ w, ScoreChar c) ∧ ∀ c, r.head? = some c → ¬ ScoreChar c := by
    intro u
    induction u with
    | nil => exact ⟨[], [], rfl, by simp, by simp⟩
    | cons c u ih =>
      by_cases hc : ScoreChar c
      · obtain ⟨w, r, e, h1, h2⟩ := ih
        refine ⟨c :: w, r, by rw [e]; rfl, ?_, h2⟩
        intro x hx
        rcases List.mem_cons.1 hx with rfl | h'
        · exact hc
        · exact h1 x h'
      · exact ⟨[], c :: u, rfl, by simp, by rintro x hx; injection hx with hx; rw [← hx]; exact hc⟩
  by_cases hl : s.length ≤ 2
  · exact Or.inl ⟨_, _, _, .short hl⟩
  obtain ⟨w, r, rfl, hw, hr⟩ := split s
  by_cases hn : w = []
  · exact Or.inl ⟨_, _, _, .alone hw fun c hc => ⟨hr c hc, fun h => absurd hn h⟩⟩
  obtain ⟨v, hv⟩ := leadingInt_exists hw fun ds h => hs ds (h.trans (List.prefix_append _ _).isInfix)
  cases r with
  | nil => exact Or.inl ⟨_, _, _, .alone hw (by simp)⟩
  | cons c r =>
    by_cases h1 : c = ':'
    · subst h1; exact Or.inl ⟨_, _, _, .both hn hw hv (by omega)⟩
    · by_cases h2 : c = ','
      · subst h2
        obtain ⟨w', r', rfl, hw', hr'⟩ := split r
        obtain ⟨v', hv'⟩ := leadingInt_exists hw' fun ds h => hs ds (h.trans ⟨w ++ [','], r', by simp⟩)
        by_cases h3 : r'.head? = some ':'
        · cases r' with
          | nil => cases h3
          | cons c r' =>
            injection h3 with h3
            subst h3
            exact Or.inl ⟨_, _, _, .each hn hw hw' hv hv'⟩
        · exact Or.inr ⟨w, w', r', rfl, hn, hw, hw', ⟨v, hv⟩, fun c hc => ⟨hr' c hc, by rintro rfl; exact h3 hc⟩⟩
      · exact Or.inl ⟨_, _, _, .alone hw fun x hx => by
          injection hx with hx
          subst hx
          exact ⟨hr _ rfl, fun _ => ⟨h1, h2⟩⟩⟩

/-! ### Cases -/

/-- Patterns and scores of a `music` on `b` bells after a string has been added. -/
def afterString (b : Nat) (s : String) : Option (List (String × Int × Int)) :=
  match (Music.new b).addScoredC s.toList with
  | .ok m => some (m.info.map fun d => (String.ofList d.pat.pat, d.scoreh, d.scoreb))
  | _ => none

/-- C66: a score with a plus, although looked for, is not read: the string is then taken for a pattern and
rejected.  With a minus it is. -/
theorem C66_plus : (Music.new 4).addScoredC "+5:1234".toList = .throw .invalidArgument ∧
    afterString 4 "-5:1234" = some [("1234", -5, -5)] ∧ afterString 4 "5,7:12*" = some [("12*", 5, 7)] := by
  refine ⟨by rfl, by decide +kernel, by decide +kernel⟩

/-- C66: the length of a run is cut down to 32 bits: 4294967300 is 4. -/
theorem C66_wrap : afterString 5 "2:<front-4294967300-runs>" = afterString 5 "2:<front-4-runs>" ∧
    afterString 5 "2:<front-4-runs>" = some [("1234*", 2, 2), ("2345*", 2, 2), ("4321*", 2, 2), ("5432*", 2, 2)] := by
  refine ⟨by decide +kernel, by decide +kernel⟩

/-- C66: on more than 33 bells the name of a row is a pattern with stars for the high bells: `rounds` on 34 bells has a `*`
for the last one. -/
theorem C66_big : (Music.rowText (Row.roundsC 34)).getLast? = some '*' := by decide +kernel

/-- Non-vacuity. -/
example : NamedMusic 8 "back-4-runs".toList (runPatterns 8 4 [.star] []) :=
  .back (t := "4-runs".toList) ⟨[], [], ['4'], by decide, by simp, by simp, by simp [Digit], Or.inl ⟨Or.inl rfl, by decide⟩⟩ (by omega) (by omega)

example : Scored "3,-4:<queens>".toList 3 (-4) "<queens>".toList :=
  .each (w := ['3']) (w' := ['-', '4']) (by simp) (by simp [ScoreChar, Digit]) (by simp [ScoreChar, Digit])
    ⟨[], [], ['3'], [], rfl, by simp, by simp [Space], by simp [Digit], by simp, Or.inl ⟨rfl, by simp, by decide⟩, by omega, by omega⟩
    ⟨[], ['-'], ['4'], [], rfl, by simp, by simp [Space], by simp [Digit], by simp, Or.inr (Or.inr ⟨rfl, by decide⟩), by omega, by omega⟩

end Music
end Ringing
