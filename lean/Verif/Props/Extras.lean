import Verif.Props.Music
import Verif.Props.Wildcard
import Verif.Props.Multtab
import Verif.Props.Falseness
import Verif.Props.Touch
import Verif.Props.Extent
import Verif.Props.MathUtils
import Verif.Props.Group
/-
Further theorems: the remaining constructors and accessors of the classes of C23, C34, C36, C37, C42 and C47.
-/
namespace Ringing
open Spec

/-- C23: `extent::size` is the number of rows of the extent up to 12 working bells, and wrong from 13 on. -/
theorem C23_size (nw : Nat) (h : nw < 2 ^ 32) :
    Extent.sizeC nw = Spec.fact nw % 2 ^ 32 ∧ (Extent.sizeC nw = Spec.fact nw ↔ nw ≤ 12) := by
  rw [fact_eq]
  exact C44_factorial nw h

example : Extent.sizeC 4 = 24 := by decide +kernel

/-- C34: the table of a method against a list of rows. -/
theorem C34_method_rows {a : Method} {B : List Row} {n flags : Nat} (hn : 0 < n) (hn' : n ≤ 255)
    (ha : ∀ c ∈ a.ch, IsChange c.n c.swaps ∧ c.n = n) (hab : a.b = n) (hB : ∀ b ∈ B, IsRow b ∧ b.length = n)
    (h1 : ¬ (flags.testBit 2 = true ∧ a.ch.length = 1)) :
    ∃ t, Falseness.ofMethodRowsC a B flags = .ok t ∧ t.Pairwise LexLt ∧
      ∀ f, f ∈ t ↔ IsRow f ∧ f.length = n ∧ Falseness.Allowed flags f ∧
        ∃ i, i < Falseness.used flags a.ch.length ∧
        ∃ y ∈ B.take (if flags.testBit 2 then B.length / 2 else B.length), ∃ x,
          Method.applyAllC (a.ch.take i) (Row.roundsC n) = .ok x ∧ ∀ k, bellAt f (bellAt y k) = bellAt x k := by
  have wa : a.WF := ⟨by omega, fun c hc => hab ▸ ha c hc⟩
  obtain ⟨L, l1, l2, l3⟩ := leadC_spec wa (flags := flags) h1
  have hL := lead_rows wa l3
  obtain ⟨t, t1, t2, t3⟩ := C34_rows (flags := flags) hn
    (fun x hx => ⟨(isRow_iff_valid _).2 (hL x hx).1, (hL x hx).2.trans hab⟩) hB
  refine ⟨t, by rw [Falseness.ofMethodRowsC, l1, Out.ok_bind, t1], t2, fun f => ?_⟩
  have k1 : (if flags.testBit 2 then L.length / 2 else L.length) = Falseness.used flags a.ch.length := by
    rw [l2]; unfold Falseness.used; split <;> rfl
  have q1 : Falseness.used flags a.ch.length ≤ L.length := by rw [← k1]; split <;> omega
  rw [t3, k1]
  simp only [mem_take_lead (m := a) q1 l3, hab]
  have va : ∀ i, Method.applyAllC (a.ch.take i) (Row.roundsC n) = .ok (Row.applyAll (Row.rounds n) (a.ch.take i)) := by
    intro i
    rw [Row.roundsC_eq (by omega), applyAllC_eq fun c hc => (ha c (List.mem_of_mem_take hc)).1]
  simp only [va, Out.ok.injEq]
  constructor
  · rintro ⟨h1, h2, h3, _, ⟨i, hi, rfl⟩, y, hy, e⟩
    exact ⟨h1, h2, h3, i, hi, y, hy, _, rfl, e⟩
  · rintro ⟨h1, h2, h3, i, hi, y, hy, x, rfl, e⟩
    exact ⟨h1, h2, h3, _, ⟨i, hi, rfl⟩, y, hy, e⟩

/-- C36: a table made with a part end is the one made with the group it generates. -/
theorem C36_part_end {r : Row} (hr : IsRow r) (L : List Row) : ∃ P, Group.ofRowC r = .ok P ∧ P.b = r.length ∧
    Lists P.v P.b (generated [r]) ∧ Multtab.ofPartEndC L r = Multtab.initC L P Group.trivial0 := by
  obtain ⟨P, h1, h2, h3⟩ := Group.C31_one hr
  exact ⟨P, h1, h2, h3, by rw [Multtab.ofPartEndC, h1, Out.ok_bind, Multtab.ofGroupC]⟩

/-- C36: `swap` exchanges two tables completely. -/
theorem C36_swap (t u : Multtab) : Multtab.swap t u = (u, t) := rfl

/-- C37: the nodes of a touch are those pushed back, in order, whatever the head is set to. -/
theorem C37_nodes (l : List TouchNode) (h : TouchNode) (i : Nat) :
    (((l.foldl Touch.pushBack Touch.new).setHead h).getNodeC i = match l[i]? with | some n => .ok n | none => .ub) ∧
    ((l.foldl Touch.pushBack Touch.new).setHead h).head = some h := by
  have key : ∀ (l : List TouchNode) (t : Touch), (l.foldl Touch.pushBack t).nodes = t.nodes ++ l := by
    intro l
    induction l with
    | nil => intro t; simp
    | cons n l ih => intro t; rw [List.foldl_cons, ih]; simp [Touch.pushBack]
  refine ⟨?_, rfl⟩
  unfold Touch.getNodeC vget Touch.setHead
  simp only [key, Touch.new, List.nil_append]
  cases l[i]? <;> rfl

/-- C47: after setting a new first row and recalculating, all rows start from it. -/
theorem C47_set_start {b : RowBlock} (hc : ∀ c ∈ b.ch, IsChange c.n c.swaps) (hne : b.rows ≠ [])
    (hlen : b.rows.length ≤ b.ch.length + 1) (r : Row) :
    ∃ b', (b.setStartC r >>= fun x => x.recalculateC 0) = .ok b' ∧ b'.ch = b.ch ∧ b'.rows.length = b.rows.length ∧
      ∀ i, i < b'.rows.length → b'.rows[i]? = some ((b.ch.take i).foldl Row.apply r) := by
  have hpos : 0 < b.rows.length := List.length_pos_of_ne_nil hne
  have hs : b.setStartC r = .ok ⟨b.rows.set 0 r, b.ch⟩ := by
    unfold RowBlock.setStartC vset
    simp [hpos]
  rw [hs, Out.ok_bind]
  obtain ⟨b', h1, h2, h3, h4⟩ := C47_recalculate (b := ⟨b.rows.set 0 r, b.ch⟩) hc (r := r) (start := 0)
    (by simpa using hlen) (by
      intro i hi hl
      have : i = 0 := by omega
      subst this
      simp [hpos])
  exact ⟨b', h1, h2, by simpa using h3, h4⟩

/-- C47: `set_start` alone changes only the first row. -/
theorem C47_set_start_only {b : RowBlock} (hne : b.rows ≠ []) (r : Row) :
    ∃ b', b.setStartC r = .ok b' ∧ b'.rows[0]? = some r ∧ ∀ i, i ≠ 0 → b'.rows[i]? = b.rows[i]? := by
  have hpos : 0 < b.rows.length := List.length_pos_of_ne_nil hne
  refine ⟨⟨b.rows.set 0 r, b.ch⟩, by unfold RowBlock.setStartC vset; simp [hpos], by simp [hpos], ?_⟩
  intro i hi
  simp [List.getElem?_set, Ne.symm hi]

/-! ### Music -/

/-- What a pattern contributes to the count. -/
def Music.share (st : Option Bool) (d : MusicDetails) : Nat :=
  match st with
  | some false => d.counth
  | some true => d.countb
  | none => d.counth + d.countb

/-- C42: `get_count` is the sum of the counts at the stroke, or at both, modulo 2^32. -/
theorem C42_get_count (m : Music) (st : Option Bool) :
    m.getCount st = (m.info.map (Music.share st)).sum % 2 ^ 32 := by
  have key : ∀ (l : List MusicDetails) (t : Nat), l.foldl (fun t d => u32 (t + d.count st)) (u32 t) =
      u32 (t + (l.map (Music.share st)).sum) := by
    intro l
    induction l with
    | nil => intro t; simp
    | cons d l ih =>
      intro t
      have e : u32 (u32 t + d.count st) = u32 (t + Music.share st d) := by
        clear ih
        rcases st with _ | _ | _ <;> simp only [MusicDetails.count, u32, Music.share] <;> omega
      rw [List.foldl_cons, e, ih, List.map_cons, List.sum_cons, Nat.add_assoc]
  have := key m.info 0
  simpa [Music.getCount, u32] using this

/-- C42: the possible matches of a pattern, where `count` is right (see C43): the rows described, modulo
2^32. -/
theorem C42_possible {b : Nat} (hb0 : 0 < b) (hb : b < 2 ^ 32) {p : List Tok} (hn : ∀ x ∈ named p, x < b ∧ x < 33)
    (hf : (fixed p).Nodup) (hl : Later p) (ha : Anchored p) (ho : ones p ≤ b) {fuel : Nat}
    (hfuel : (p.length + 1) * (b + 3) < fuel) {d : MusicDetails} (hd : d.pat.pat = text p) :
    d.possibleMatchesC b fuel = .ok ((described b p).ncard % 2 ^ 32) ∧
    (0 ≤ (if d.scoreh > d.scoreb then d.scoreh else d.scoreb) →
      ((described b p).ncard : Int) * (if d.scoreh > d.scoreb then d.scoreh else d.scoreb) < 2 ^ 31 →
      (described b p).ncard < 2 ^ 32 →
      d.possibleScoreC b fuel = .ok ((described b p).ncard * (max d.scoreh d.scoreb))) := by
  have h1 : d.possibleMatchesC b fuel = .ok ((described b p).ncard % 2 ^ 32) := by
    obtain ⟨⟨pat, b'⟩, _, _, _, _, _⟩ := d
    simp only at hd
    subst hd
    rw [MusicDetails.possibleMatchesC, (C43_count hb0 hb hn hf hl ha ho hfuel b').1, Out.ok_bind, u32]
    congr 1
    omega
  refine ⟨h1, fun h2 h3 h4 => ?_⟩
  rw [MusicDetails.possibleScoreC, h1, Out.ok_bind, Nat.mod_eq_of_lt h4]
  have e : (if d.scoreh > d.scoreb then d.scoreh else d.scoreb) = max d.scoreh d.scoreb := by
    rw [max_def]; split <;> split <;> omega
  rw [e] at h2 h3 ⊢
  rw [i32_id ⟨?_, by omega⟩]
  have : (0 : Int) ≤ ((described b p).ncard : Int) * max d.scoreh d.scoreb := Int.mul_nonneg (by omega) h2
  omega

/-- C42: pushing back several patterns is accepted iff each of them is, in order. -/
theorem C42_append {b : Nat} (m : Music) (d : MusicDetails) (ds : List MusicDetails) :
    m.appendC [] = .ok m ∧ m.appendC (d :: ds) = (m.pushBackC d >>= fun m' => m'.appendC ds) ∧
    Music.newWithC b d = (Music.new b).appendC [d] := by
  refine ⟨rfl, rfl, ?_⟩
  show _ = ((Music.new b).pushBackC d >>= fun m' => .ok m')
  unfold Music.newWithC
  cases (Music.new b).pushBackC d <;> rfl

/-- C42: `clear` does not forget the patterns: they stay listed, with counts of 0, but no row is ever counted
for them. -/
theorem C42_clear_all (m : Music) (b : Nat) {r : Row} {g : Nat → Nat} (back : Bool) :
    (m.clear b).info.length = m.info.length ∧ (∀ d ∈ (m.clear b).info, d.counth = 0 ∧ d.countb = 0) ∧
    ∃ m', (m.clear b).processC (fun i => .ok (g i)) r back = .ok (m', false) ∧ m'.top = MNode.new ∧
      ∀ d ∈ m'.info, d.counth = 0 ∧ d.countb = 0 := by
  have h0 : ∀ d ∈ (m.clear b).info, d.counth = 0 ∧ d.countb = 0 := by
    intro d hd
    simp only [Music.clear, Music.reset, List.mem_map] at hd
    obtain ⟨x, -, rfl⟩ := hd
    exact ⟨rfl, rfl⟩
  refine ⟨by simp [Music.clear, Music.reset], h0, ?_⟩
  refine ⟨_, rfl, rfl, ?_⟩
  intro d hd
  simp only [List.mem_map] at hd
  obtain ⟨x, hx, rfl⟩ := hd
  exact h0 x hx

/-- C42: `set_bells` refuses if a pattern names a bell out of range; otherwise the search structure stays as
it was built for the old number of bells. -/
theorem C42_set_bells {b : Nat} {m : Music} {ps : List (List Tok)} (hR : Reached b m ps) (b' : Nat) (hb : b' ≠ b) (hb0 : b' ≠ 0) :
    ((∀ p ∈ ps, ∀ x ∈ named p, x < b') →
      ∃ m', m.setBellsC b' = .ok m' ∧ m'.top = m.top ∧ m'.b = b' ∧ m'.info.length = m.info.length) ∧
    ((¬ ∀ p ∈ ps, ∀ x ∈ named p, x < b') → m.setBellsC b' = .throw .invalidArgument) := by
  have hmb : m.b ≠ b' := by rw [hR.inv.bells]; exact Ne.symm hb
  have hstep : ∀ (d : MusicDetails) p, Spells p d.pat.pat → ((∀ x ∈ named p, x < b') → ∃ d', d.checkBellsC b' = .ok d') ∧
      ((¬ ∀ x ∈ named p, x < b') → d.checkBellsC b' = .throw .invalidArgument) := by
    intro d p hs
    unfold MusicDetails.checkBellsC Wildcard.setBellsC
    rw [if_neg hb0, bellsLoop_spec hs]
    constructor
    · intro h; rw [if_pos h, Out.ok_bind, Out.ok_bind]; exact ⟨_, rfl⟩
    · intro h; rw [if_neg h]; rfl
  have key : ∀ (l : List MusicDetails) (qs : List (List Tok)), l.length = qs.length →
      (∀ (k : Nat) d p, l[k]? = some d → qs[k]? = some p → Spells p d.pat.pat) →
      ((∀ p ∈ qs, ∀ x ∈ named p, x < b') → ∃ l', l.mapM (fun d => d.checkBellsC b') = .ok l' ∧ l'.length = l.length) ∧
      ((¬ ∀ p ∈ qs, ∀ x ∈ named p, x < b') → l.mapM (fun d => d.checkBellsC b') = .throw .invalidArgument) := by
    intro l
    induction l with
    | nil =>
      intro qs hq _
      have : qs = [] := List.length_eq_zero_iff.1 hq.symm
      subst this
      exact ⟨fun _ => ⟨[], rfl, rfl⟩, fun h => absurd (by simp) h⟩
    | cons d l ih =>
      intro qs hq hsp
      obtain _ | ⟨q, qs⟩ := qs
      · simp at hq
      rw [List.mapM_cons]
      obtain ⟨i1, i2⟩ := ih qs (by simpa using hq) (fun k d p h1 h2 => hsp (k + 1) d p (by simpa using h1) (by simpa using h2))
      obtain ⟨s1, s2⟩ := hstep d q (hsp 0 d q rfl rfl)
      constructor
      · intro h
        obtain ⟨d', e⟩ := s1 (h q (by simp))
        obtain ⟨l', e', hl⟩ := i1 (fun p hp => h p (by simp [hp]))
        rw [e, Out.ok_bind, e', Out.ok_bind]
        exact ⟨_, rfl, by simp [hl]⟩
      · intro h
        by_cases hq' : ∀ x ∈ named q, x < b'
        · obtain ⟨d', e⟩ := s1 hq'
          rw [e, Out.ok_bind, i2 (fun h' => h (by simpa using ⟨hq', h'⟩))]
          rfl
        · rw [s2 hq']; rfl
  obtain ⟨k1, k2⟩ := key m.info ps hR.inv.len hR.inv.pats
  unfold Music.setBellsC
  rw [if_pos hmb]
  constructor
  · intro h
    obtain ⟨l', e, hl⟩ := k1 h
    rw [e, Out.ok_bind]; exact ⟨_, rfl, rfl, rfl, hl⟩
  · intro h
    rw [k2 h]; rfl

/-- The counts after one row at handstroke, if the number of bells is changed after the patterns are given. -/
def countAfterSet (b b' : Nat) (ps : List String) (r : Row) : List Nat :=
  match musicOf b ps >>= fun m => m.setBellsC b' >>= fun m => m.processC (fun i => .ok (r.getD i 0)) r false with
  | .ok x => x.1.info.map (·.counth)
  | _ => []

/-- C42: so with the number of bells changed from 4 to 6, `*12` counts a row with the 1 and 2 in 3rds and 4ths
and not one with them at the back. -/
theorem C42_set_bells_stale : countAfterSet 4 6 ["*12"] [2, 3, 0, 1, 4, 5] = [1] ∧
    countAfterSet 4 6 ["*12"] [2, 3, 4, 5, 0, 1] = [0] ∧ countRow 6 0 ["*12"] [2, 3, 4, 5, 0, 1] = [1] := by decide +kernel

end Ringing
