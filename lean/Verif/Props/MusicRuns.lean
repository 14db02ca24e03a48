import Verif.Props.Music
/-! C42: the patterns for runs and CRUs. -/
namespace Ringing
open Spec

theorem bellChar_toChar {i : Nat} (hi : i < 33) : BellChar (Bell.toChar i) i := by
  have : ∀ i : Fin 33, "1234567890ETABCDFGHJKLMNPQRSUVWYZ".toList[i.1]? = some (Bell.toChar i.1).toUpper := by decide
  exact Or.inl (this ⟨i, hi⟩)

theorem spells_bells {l : List Nat} (hl : ∀ x ∈ l, x < 33) {p : List Tok} {s : List Char} (hs : Spells p s) :
    Spells (l.map Tok.bell ++ p) (Music.bellsText l ++ s) := by
  induction l with
  | nil => exact hs
  | cons x l ih =>
    have hx := hl x (by simp)
    have : Music.bellsText (x :: l) ++ s = Bell.toChar x :: (Music.bellsText l ++ s) := by
      simp [Music.bellsText, Bell.write, hx]
    rw [this]
    exact .bell (bellChar_toChar hx) (ih fun y hy => hl y (by simp [hy]))

theorem named_bells (l : List Nat) (p : List Tok) : named (l.map Tok.bell ++ p) = l ++ named p := by
  induction l with
  | nil => rfl
  | cons x l ih => simp [named, ih]

/-- The patterns for runs of `n` bells. -/
def runToks (b n : Nat) (pos : Music.Pos) (dir : Int) : List (List Tok) :=
  let pre : List Tok := if pos = .front then [] else [.star]
  let suf : List Tok := if pos = .back then [] else [.star]
  (if dir ≥ 0 then (List.range (b + 1 - n)).map fun i => pre ++ ((List.range n).map fun j => .bell (i + j)) ++ suf else []) ++
  (if dir ≤ 0 then (List.range (b + 1 - n)).map fun i => pre ++ ((List.range n).reverse.map fun j => .bell (i + j)) ++ suf else [])

theorem foldlM_reached {b : Nat} (sh sb : Int) : ∀ {qs : List (List Tok)} {ts : List (List Char)} {m : Music} {ps},
    Reached b m ps → List.Forall₂ Spells qs ts → (∀ q ∈ qs, ∀ x ∈ named q, x < b) →
    ∃ m', ts.foldlM (fun m p => MusicDetails.newC p sh sb >>= fun d => m.pushBackC d) m = .ok m' ∧ Reached b m' (ps ++ qs) := by
  intro qs
  induction qs with
  | nil => intro ts m ps hR h _; cases h; exact ⟨m, rfl, by rw [List.append_nil]; exact hR⟩
  | cons q qs ih =>
    intro ts m ps hR h hn
    cases h with
    | @cons _ t _ ts h1 h2 =>
      have hd := newC_spells h1 sh sb
      obtain ⟨m1, e1⟩ := (C42_push hR h1 hd).1.2 (Or.inr (hn q (by simp)))
      obtain ⟨m2, e2, hR2⟩ := ih (.push hR h1 hd e1) h2 (fun q hq => hn q (by simp [hq]))
      refine ⟨m2, ?_, by rw [List.append_assoc] at hR2; exact hR2⟩
      rw [List.foldlM_cons, hd, Out.ok_bind, e1, Out.ok_bind]; exact e2

theorem spells_run {l : List Nat} (hl : ∀ x ∈ l, x < 33) (f g : Prop) [Decidable f] [Decidable g] :
    Spells ((if f then [] else [.star]) ++ l.map Tok.bell ++ (if g then [] else [.star]))
      ((if ¬ f then ['*'] else []) ++ Music.bellsText l ++ (if ¬ g then ['*'] else [])) := by
  have h1 : Spells (l.map Tok.bell ++ (if g then [] else [.star])) (Music.bellsText l ++ (if ¬ g then ['*'] else [])) := by
    refine spells_bells hl ?_
    by_cases hg : g
    · simp [hg]; exact .nil
    · simp [hg]; exact .star .nil
  by_cases hf : f
  · simpa [hf] using h1
  · simp only [hf, if_false, not_false_eq_true, if_true, List.cons_append, List.nil_append]; exact .star h1

theorem named_run {l : List Nat} (f g : Prop) [Decidable f] [Decidable g] :
    named ((if f then [] else [.star]) ++ l.map Tok.bell ++ (if g then [] else [.star])) = l := by
  have : named (l.map Tok.bell ++ (if g then [] else [.star])) = l := by
    rw [named_bells]; split <;> simp [named]
  split
  · simpa using this
  · simpa [named] using this

theorem runs_texts {b : Nat} (n : Nat) (hb : b ≤ 33) (pos : Music.Pos) (dir sh sb : Int) :
    ∃ ts, Music.makeRunsC b n pos dir sh sb =
        ts.foldlM (fun m p => MusicDetails.newC p sh sb >>= fun d => m.pushBackC d) (Music.new b) ∧
      List.Forall₂ Spells (runToks b n pos dir) ts ∧ ∀ q ∈ runToks b n pos dir, ∀ x ∈ named q, x < b := by
  unfold Music.makeRunsC
  have key : ∀ l : List Nat, (∀ j ∈ l, j < n) → ∀ i ∈ List.range (b + 1 - n), ∀ x ∈ l.map (i + ·), x < b := by
    intro l hl i hi x hx
    obtain ⟨j, hj, rfl⟩ := List.mem_map.1 hx
    have := hl j hj
    have := List.mem_range.1 hi
    omega
  have sub : ∀ l : List Nat, (∀ j ∈ l, j < n) →
      List.Forall₂ Spells ((List.range (b + 1 - n)).map fun i => (if pos = .front then [] else [Tok.star]) ++ (l.map fun j => Tok.bell (i + j)) ++ (if pos = .back then [] else [.star]))
        ((List.range (b + 1 - n)).map fun i => (if pos ≠ .front then ['*'] else []) ++ Music.bellsText (l.map (i + ·)) ++ (if pos ≠ .back then ['*'] else [])) ∧
      ∀ q ∈ ((List.range (b + 1 - n)).map fun i => (if pos = .front then [] else [Tok.star]) ++ (l.map fun j => Tok.bell (i + j)) ++ (if pos = .back then [] else [.star])),
        ∀ x ∈ named q, x < b := by
    intro l hl
    have e : ∀ i, (l.map fun j => Tok.bell (i + j)) = (l.map (i + ·)).map Tok.bell := fun i => by rw [List.map_map]; rfl
    refine ⟨?_, ?_⟩
    · rw [List.forall₂_map_left_iff, List.forall₂_map_right_iff, List.forall₂_same]
      intro i hi
      rw [e]
      exact spells_run (fun x hx => lt_of_lt_of_le (key l hl i hi x hx) hb) (pos = .front) (pos = .back)
    · intro q hq x hx
      obtain ⟨i, hi, rfl⟩ := List.mem_map.1 hq
      rw [e, named_run] at hx
      exact key l hl i hi x hx
  have h1 := sub (List.range n) (by simp)
  have h2 := sub (List.range n).reverse (by simp)
  have h : List.Forall₂ Spells (runToks b n pos dir) ((if dir ≥ 0 then (List.range (b + 1 - n)).map fun i => (if pos ≠ .front then ['*'] else []) ++ Music.bellsText ((List.range n).map (i + ·)) ++ (if pos ≠ .back then ['*'] else []) else []) ++
      (if dir ≤ 0 then (List.range (b + 1 - n)).map fun i => (if pos ≠ .front then ['*'] else []) ++ Music.bellsText ((List.range n).reverse.map (i + ·)) ++ (if pos ≠ .back then ['*'] else []) else [])) := by
    unfold runToks
    apply List.rel_append
    · split
      · exact h1.1
      · exact .nil
    · split
      · exact h2.1
      · exact .nil
  refine ⟨_, rfl, h, ?_⟩
  intro q hq
  unfold runToks at hq
  rcases List.mem_append.1 hq with hq | hq
  · split at hq
    · exact h1.2 q hq
    · simp at hq
  · split at hq
    · exact h2.2 q hq
    · simp at hq

/-- C42: `make_runs_match` makes a `music` with the patterns for runs of `n` bells at the front, at the back
or anywhere, up, down or both. -/
theorem C42_runs {b n : Nat} (hb : b ≤ 33) (pos : Music.Pos) (dir sh sb : Int) :
    ∃ m, Music.makeRunsC b n pos dir sh sb = .ok m ∧ Reached b m (runToks b n pos dir) := by
  obtain ⟨ts, e, h, hn⟩ := runs_texts n hb pos dir sh sb
  rw [e]
  obtain ⟨m, em, hR⟩ := foldlM_reached sh sb (Reached.new (b := b)) h hn
  exact ⟨m, em, hR⟩

theorem matches_bells (l : List Nat) (p : List Tok) : ∀ r, Matches (l.map Tok.bell ++ p) r ↔ ∃ t, r = l ++ t ∧ Matches p t := by
  induction l with
  | nil => intro r; simp
  | cons x l ih =>
    intro r
    rw [List.map_cons, List.cons_append, Matches]
    constructor
    · rintro ⟨t, rfl, h⟩
      obtain ⟨t', rfl, h'⟩ := (ih t).1 h
      exact ⟨t', rfl, h'⟩
    · rintro ⟨t, rfl, h⟩
      exact ⟨l ++ t, rfl, (ih _).2 ⟨t, rfl, h⟩⟩

theorem matches_star (r : List Nat) : Matches [.star] r := ⟨r, [], by simp, rfl⟩

/-- `n` bells one after the other, going up from `i` or down to it. -/
def IsRun (n : Nat) (dir : Int) (i : Nat) (l : List Nat) : Prop :=
  (dir ≥ 0 ∧ l = (List.range n).map (i + ·)) ∨ (dir ≤ 0 ∧ l = ((List.range n).map (i + ·)).reverse)

theorem width_bells (l : List Nat) (p : List Tok) : width (l.map Tok.bell ++ p) = l.length + width p := by
  induction l with
  | nil => simp
  | cons x l ih => simp [width, ih]; omega

theorem ones_bells (l : List Nat) (p : List Tok) : ones (l.map Tok.bell ++ p) = l.length + ones p := by
  unfold ones
  rw [List.filter_append, List.length_append]
  congr 1
  rw [List.filter_eq_self.2, List.length_map]
  intro t ht
  obtain ⟨x, -, rfl⟩ := List.mem_map.1 ht
  simp

theorem plain_run {b : Nat} {l : List Nat} (f : Prop) [Decidable f] (h : ¬ f → b ≤ 2 * l.length + 4) :
    PlainPat b ((if f then [] else [.star]) ++ l.map Tok.bell ++ [.star]) := by
  refine Or.inr ⟨⟨_, rfl⟩, ?_⟩
  have hns : Tok.star ∉ l.map Tok.bell := by simp
  have base : ∀ z, (Tok.star :: z) <:+ (l.map Tok.bell ++ [.star]) → z = [] := by
    intro z hz
    obtain ⟨u, hu⟩ := hz
    rcases List.append_eq_append_iff.1 hu with ⟨a, h1, h2⟩ | ⟨a, h1, h2⟩
    · cases a with
      | nil => simpa using h2
      | cons t a =>
        exfalso
        injection h2 with h3 h4
        exact hns (by rw [h1, ← h3]; simp)
    · cases a with
      | nil => simpa using h2.symm
      | cons t a =>
        have := congrArg List.length h2
        simp at this
  intro z hz hst
  by_cases hf : f
  · simp only [hf, if_true, List.nil_append] at hz
    rw [base z hz] at hst; simp at hst
  · simp only [hf, if_false, List.cons_append, List.nil_append] at hz
    rcases List.suffix_cons_iff.1 hz with e | hz
    · injection e with _ e
      subst e
      rw [lastNonempty_star, width_bells, ones_bells]
      have := h hf
      simp [width, ones]; omega
    · rw [base z hz] at hst; simp at hst

/-- C42: the runs at the front, and those anywhere on at most `2n + 4` bells, are found: `process_row` says
whether there is a run in the row. -/
theorem C42_runs_found {b n : Nat} (hb : b ≤ 33) {pos : Music.Pos} (hp : pos ≠ .back) (hw : pos = .anywhere → b ≤ 2 * n + 4)
    (dir sh sb : Int) {r : Row} (hr : r.length = b) {g : Nat → Nat} (hg : ∀ i (h : i < r.length), g i = r[i]) (back : Bool) :
    ∃ m m' x, Music.makeRunsC b n pos dir sh sb = .ok m ∧ m.processC (fun i => .ok (g i)) r back = .ok (m', x) ∧
      (x = true ↔ ∃ i a l t, i + n ≤ b ∧ r = a ++ l ++ t ∧ (pos = .front → a = []) ∧ IsRun n dir i l) := by
  obtain ⟨m, e, hR⟩ := C42_runs (n := n) hb pos dir sh sb
  have e1 : ∀ (i : Nat) (l : List Nat), (l.map fun j => Tok.bell (i + j)) = (l.map (i + ·)).map Tok.bell := fun i l => by rw [List.map_map]; rfl
  have hmem : ∀ p, p ∈ runToks b n pos dir ↔ ∃ i l, i + n < b + 1 ∧ IsRun n dir i l ∧
      p = (if pos = .front then [] else [.star]) ++ l.map Tok.bell ++ [.star] := by
    intro p
    simp only [runToks, if_neg hp, List.mem_append, e1]
    constructor
    · rintro (h | h)
      · split at h
        · rename_i hd
          obtain ⟨i, hi, rfl⟩ := List.mem_map.1 h
          exact ⟨i, _, by have := List.mem_range.1 hi; omega, Or.inl ⟨hd, rfl⟩, rfl⟩
        · simp at h
      · split at h
        · rename_i hd
          obtain ⟨i, hi, rfl⟩ := List.mem_map.1 h
          exact ⟨i, _, by have := List.mem_range.1 hi; omega, Or.inr ⟨hd, List.map_reverse⟩, rfl⟩
        · simp at h
    · rintro ⟨i, l, hi, ⟨hd, rfl⟩ | ⟨hd, rfl⟩, rfl⟩
      · left; rw [if_pos hd]; exact List.mem_map.2 ⟨i, List.mem_range.2 (by omega), rfl⟩
      · right; rw [if_pos hd]; exact List.mem_map.2 ⟨i, List.mem_range.2 (by omega), by rw [List.map_reverse]⟩
  have hlen : ∀ i l, IsRun n dir i l → l.length = n := by
    rintro i l (⟨-, rfl⟩ | ⟨-, rfl⟩) <;> simp
  have hP : ∀ p ∈ runToks b n pos dir, PlainPat b p := by
    intro p hp'
    obtain ⟨i, l, -, hl, rfl⟩ := (hmem p).1 hp'
    refine plain_run _ fun h => ?_
    rw [hlen i l hl]
    exact hw (by cases pos <;> first | rfl | exact absurd rfl h | exact absurd rfl hp)
  obtain ⟨m', x, e2, -, hx, -⟩ := C42_row hR hP hr hg back
  refine ⟨m, m', x, e, e2, hx.trans ?_⟩
  constructor
  · rintro ⟨p, hp', hm⟩
    obtain ⟨i, l, hi, hl, rfl⟩ := (hmem p).1 hp'
    rw [full, if_pos (by simp)] at hm
    by_cases hf : pos = .front
    · simp only [hf, if_true, List.nil_append] at hm
      obtain ⟨t, rfl, -⟩ := (matches_bells _ _ _).1 hm
      exact ⟨i, [], l, t, by omega, rfl, fun _ => rfl, hl⟩
    · simp only [hf, if_false, List.cons_append, List.nil_append, Matches] at hm
      obtain ⟨a, u, rfl, hm⟩ := hm
      obtain ⟨t, rfl, -⟩ := (matches_bells _ _ _).1 hm
      exact ⟨i, a, l, t, by omega, by simp, fun h => absurd h hf, hl⟩
  · rintro ⟨i, a, l, t, hi, rfl, ha, hl⟩
    refine ⟨_, (hmem _).2 ⟨i, l, by omega, hl, rfl⟩, ?_⟩
    rw [full, if_pos (by simp)]
    by_cases hf : pos = .front
    · rw [ha hf]
      simp only [hf, if_true, List.nil_append]
      exact (matches_bells _ _ _).2 ⟨t, rfl, matches_star t⟩
    · simp only [hf, if_false, List.cons_append, List.nil_append, Matches]
      exact ⟨a, l ++ t, by simp, (matches_bells _ _ _).2 ⟨t, rfl, matches_star t⟩⟩

/-- The patterns for CRUs. -/
def cruToks (b : Nat) : List (List Tok) :=
  if b ≥ 6 then [(3, 4), (3, 5), (4, 3), (4, 5), (5, 3), (5, 4)].map fun x =>
    .star :: .bell x.1 :: .bell x.2 :: (List.range (b - 6)).map fun k => .bell (6 + k) else []

theorem cru_texts {b : Nat} (hb : b ≤ 33) (sh sb : Int) :
    ∃ ts, Music.makeCruC b sh sb = ts.foldlM (fun m p => MusicDetails.newC p sh sb >>= fun d => m.pushBackC d) (Music.new b) ∧
      List.Forall₂ Spells (cruToks b) ts ∧ ∀ q ∈ cruToks b, ∀ x ∈ named q, x < b := by
  unfold Music.makeCruC cruToks
  by_cases h6 : b ≥ 6
  · rw [if_pos h6, if_pos h6]
    have key : ∀ i j, i < 6 → j < 6 → Spells (.star :: .bell i :: .bell j :: (List.range (b - 6)).map fun k => .bell (6 + k))
        ('*' :: Music.bellsText (i :: j :: (List.range (b - 6)).map (6 + ·))) := by
      intro i j hi hj
      have := spells_bells (l := i :: j :: (List.range (b - 6)).map (6 + ·)) (by
        intro x hx
        simp only [List.mem_cons, List.mem_map, List.mem_range] at hx
        rcases hx with rfl | rfl | ⟨k, hk, rfl⟩ <;> omega) .nil
      simp only [List.append_nil, List.map_cons, List.map_map] at this
      exact .star this
    refine ⟨_, rfl, ?_, ?_⟩
    · exact .cons (key 3 4 (by omega) (by omega)) (.cons (key 3 5 (by omega) (by omega)) (.cons (key 4 3 (by omega) (by omega))
          (.cons (key 4 5 (by omega) (by omega)) (.cons (key 5 3 (by omega) (by omega)) (.cons (key 5 4 (by omega) (by omega)) .nil)))))
    · intro q hq x hx
      obtain ⟨y, hy, rfl⟩ := List.mem_map.1 hq
      have hy2 : y.1 < 6 ∧ y.2 < 6 := by
        have : ∀ y ∈ [(3, 4), (3, 5), (4, 3), (4, 5), (5, 3), (5, 4)], y.1 < 6 ∧ y.2 < 6 := by decide
        exact this y hy
      have e : ((List.range (b - 6)).map fun k => Tok.bell (6 + k)) = ((List.range (b - 6)).map (6 + ·)).map Tok.bell ++ [] := by
        simp
      rw [named, named, named, e, named_bells] at hx
      simp [named] at hx
      omega
  · rw [if_neg h6, if_neg h6]
    exact ⟨[], rfl, .nil, by simp⟩

/-- C42: `make_cru_match` makes a `music` with the six patterns of two of the bells 4, 5, 6 and then the bells
from 7 on in order. -/
theorem C42_cru {b : Nat} (hb : b ≤ 33) (sh sb : Int) :
    ∃ m, Music.makeCruC b sh sb = .ok m ∧ Reached b m (cruToks b) := by
  obtain ⟨ts, e, h, hn⟩ := cru_texts hb sh sb
  rw [e]
  obtain ⟨m, em, hR⟩ := foldlM_reached sh sb (Reached.new (b := b)) h hn
  exact ⟨m, em, hR⟩

/-- Non-vacuity: the runs of four anywhere on eight bells are found. -/
example : (∃ m, Music.makeRunsC 8 4 .anywhere 0 1 1 = .ok m) ∧ 8 ≤ 2 * 4 + 4 ∧
    ∃ i a l t, i + 4 ≤ 8 ∧ ([0, 2, 7, 6, 5, 4, 1, 3] : Row) = a ++ l ++ t ∧ IsRun 4 0 i l :=
  ⟨(C42_runs (n := 4) (by omega) _ _ _ _).imp fun _ h => h.1, by omega,
    4, [0, 2], [7, 6, 5, 4], [1, 3], by omega, rfl, Or.inr ⟨by decide, by decide⟩⟩

end Ringing
