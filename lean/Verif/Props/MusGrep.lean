import Verif.Spec.MusGrep
import Verif.Props.Music
import Verif.Lemmas.Sign
/-! C96: the rows that `musgrep` finds. -/
namespace Ringing
namespace MusGrep
open Spec Classical

theorem sign_cases {r : Row} (h : IsRow r) : Row.signC r = .ok 1 ∨ Row.signC r = .ok (-1) := by
  have hr := (isRow_iff_valid _).1 h
  rw [Row.signC_eq hr, Row.sign_eq hr]
  rcases Int.units_eq_one_or (Equiv.Perm.sign (Row.permFin r hr r.length le_rfl)) with h | h <;> rw [h] <;> simp

theorem loop_spec {o : Opts} {ps : List (List Tok)} (hP : ∀ p ∈ ps, PlainPat o.bells p) {g : Row → Nat → Nat}
    (hg : ∀ r i (h : i < r.length), g r i = r[i]) : ∀ (rs : List Row), (∀ r ∈ rs, IsRow r) → ∀ (m : Music) (back : Bool), Reached o.bells m ps →
    ∃ m', loopC o (fun r i => .ok (g r i)) rs back m = .ok (m', ((looked o rs (!back)).filter fun x => decide (Hit ps x.1)).length,
        if o.rows = false then [] else if o.hilight = true then (looked o rs (!back)).map fun x => (x.1, decide (Hit ps x.1))
          else ((looked o rs (!back)).filter fun x => decide (Hit ps x.1)).map fun x => (x.1, false)) ∧
      ∀ (k : Nat) d p, m.info[k]? = some d → ps[k]? = some p → ∃ d', m'.info[k]? = some d' ∧
        ∀ st, d'.count (some st) = u32 (d.count (some st) +
          (((looked o rs (!back)).filter fun x => decide (x.2 = st)).map fun x => (readings (full p) x.1).length).sum) := by
  intro rs
  induction rs with
  | nil =>
    intro _ m back hR
    refine ⟨m, by simp [loopC, looked, strokes], fun k d p hd hp => ⟨d, hd, fun st => ?_⟩⟩
    have hs := hR.inv.small d (List.mem_of_getElem? hd)
    cases st
    · exact (Nat.mod_eq_of_lt hs.1).symm
    · exact (Nat.mod_eq_of_lt hs.2).symm
  | cons r rs ih =>
    intro hv m back hR
    have hv' : ∀ r ∈ rs, IsRow r := fun r h => hv r (by simp [h])
    rw [loopC]
    by_cases hl : r.length ≠ o.bells
    · rw [if_pos hl]
      have : looked o (r :: rs) (!back) = looked o rs (!back) := by simp [looked, strokes, hl]
      rw [this]
      exact ih hv' m back hR
    · rw [if_neg hl]
      have hl : r.length = o.bells := by simpa using hl
      have hc : (¬ Course o r ∧ ∃ s, Row.signC r = .ok s ∧ (s < 0 ∧ o.inCourse = true ∨ s > 0 ∧ o.ooCourse = true)) ∨
          (Course o r ∧ ∃ s, Row.signC r = .ok s ∧ ¬ (s < 0 ∧ o.inCourse = true) ∧ ¬ (s > 0 ∧ o.ooCourse = true)) := by
        rcases sign_cases (hv r (by simp)) with h | h
        · by_cases ho : o.ooCourse = true
          · exact Or.inl ⟨fun c => c.2 ho h, 1, h, Or.inr ⟨by decide, ho⟩⟩
          · exact Or.inr ⟨⟨fun _ => by rw [h]; simp, fun h' => absurd h' ho⟩, 1, h, by simp, by simp [ho]⟩
        · by_cases ho : o.inCourse = true
          · exact Or.inl ⟨fun c => c.1 ho h, -1, h, Or.inl ⟨by decide, ho⟩⟩
          · exact Or.inr ⟨⟨fun h' => absurd h' ho, fun _ => by rw [h]; simp⟩, -1, h, by simp [ho], by simp⟩
      rcases hc with ⟨hn, s, hs, hd⟩ | ⟨hn, s, hs, hd1, hd2⟩
      · have : looked o (r :: rs) (!back) = looked o rs (!!back) := by simp [looked, strokes, hl, hn]
        rw [this, hs, Out.ok_bind]
        rcases hd with hd | hd
        · rw [if_pos hd]; exact ih hv' m (!back) hR
        · by_cases h1 : s < 0 ∧ o.inCourse = true
          · rw [if_pos h1]; exact ih hv' m (!back) hR
          · rw [if_neg h1, if_pos hd]; exact ih hv' m (!back) hR
      · have : looked o (r :: rs) (!back) = (r, !back) :: looked o rs (!!back) := by simp [looked, strokes, hl, hn]
        obtain ⟨m1, x, e1, hR1, hx, h1⟩ := C42_row hR hP hl (hg r) (!back)
        obtain ⟨m2, e2, h2⟩ := ih hv' m1 (!back) hR1
        refine ⟨m2, ?_, ?_⟩
        · rw [this, hs, Out.ok_bind, if_neg hd1, if_neg hd2, e1, Out.ok_bind]
          dsimp only
          rw [e2, Out.ok_bind]
          have hx' : x = true ↔ Hit ps r := hx
          congr 1
          by_cases hh : Hit ps r
          · have : x = true := hx'.2 hh
            subst this
            cases hrw : o.rows <;> cases hhl : o.hilight <;> simp [hh]
          · have : x = false := by rw [← Bool.not_eq_true, hx']; exact hh
            subst this
            cases hrw : o.rows <;> cases hhl : o.hilight <;> simp [hh]
        · intro k d p hd hp
          obtain ⟨d1, g1, c1, c2, -, -⟩ := h1 k d p hd hp
          obtain ⟨d2, g2, c3⟩ := h2 k d1 p g1 hp
          refine ⟨d2, g2, fun st => ?_⟩
          rw [c3 st, this]
          by_cases hst : (!back) = st
          · subst hst
            rw [c1, u32_add_u32]; simp [Nat.add_assoc]
          · have hst' : st = !!back := by cases back <;> cases st <;> simp_all
            rw [List.filter_cons_of_neg (by simpa using hst)]
            subst hst'
            rw [c2]

/-- C96: of the rows read, `musgrep` looks at those on the number of bells and of the course asked for; it counts those that match
some of the patterns, and if rows are written writes just these, in order, or with highlighting all it looks at,
with these marked; each pattern is counted at each stroke as often as the rows looked at at this stroke match it,
the first row on the number of bells being at handstroke, and the strokes alternating. -/
theorem C96_rows {o : Opts} {m : Music} {ps : List (List Tok)} (hR : Reached o.bells m ps) (hP : ∀ p ∈ ps, PlainPat o.bells p)
    {rs : List Row} (hv : ∀ r ∈ rs, IsRow r) {g : Row → Nat → Nat} (hg : ∀ r i (h : i < r.length), g r i = r[i]) :
    ∃ m' count out, mainC o (fun r i => .ok (g r i)) rs m = .ok (m', count, out) ∧
      count = ((looked o rs false).filter fun x => decide (Hit ps x.1)).length ∧
      (o.rows = true → o.hilight = false → out = ((looked o rs false).filter fun x => decide (Hit ps x.1)).map fun x => (x.1, false)) ∧
      (o.rows = true → o.hilight = true → out = (looked o rs false).map fun x => (x.1, decide (Hit ps x.1))) ∧
      (o.rows = false → out = []) ∧
      ∀ (k : Nat) d p, m.info[k]? = some d → ps[k]? = some p → ∃ d', m'.info[k]? = some d' ∧
        ∀ st, d'.count (some st) = u32 (d.count (some st) +
          (((looked o rs false).filter fun x => decide (x.2 = st)).map fun x => (readings (full p) x.1).length).sum) := by
  obtain ⟨m', h1, h2⟩ := loop_spec hP hg rs hv m true hR
  refine ⟨m', _, _, h1, rfl, ?_, ?_, ?_, h2⟩
  · intro a b; simp [a, b]
  · intro a b; simp [a, b]
  · intro a; simp [a]

/-- C96: rows are skipped without changing the strokes only if they are not on the number of bells. -/
theorem C96_strokes {o : Opts} (r : Row) (rs : List Row) (back : Bool) (h : r.length = o.bells) (hn : ¬ Course o r) :
    looked o (r :: rs) back = looked o rs (!back) := by
  simp [looked, strokes, h, hn]

/-- On four bells, for rows ending in 34 or with 2 in the second place, in course only: 1243 is out of course, 123 is on three bells. -/
example : (musicOf 4 ["*34", "?2"] >>= fun m => mainC ⟨4, true, false, true, true⟩ (fun r i => .ok (r.getD i 0))
    [[0, 1, 2, 3], [0, 1, 3, 2], [0, 1, 2], [1, 2, 0, 3], [3, 1, 0, 2]] m >>= fun y => .ok y.2)
    = .ok (2, [([0, 1, 2, 3], true), ([1, 2, 0, 3], false), ([3, 1, 0, 2], true)]) := by decide +kernel

end MusGrep
end Ringing
