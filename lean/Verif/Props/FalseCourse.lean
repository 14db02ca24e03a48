import Verif.Lemmas.FalseCourse
import Verif.Props.NamedRows
/-!
# C67: the symbols of a regular palindromic method decide which courses are false
-/
namespace Ringing
open Spec
namespace Falseness

theorem lh_eq_Q {m : Method} (wm : m.WF) {lh : Row} (hlh : Method.lhC m = .ok lh) : Row.Valid lh ∧ lh.length = m.b ∧
    permOf lh = Q m.b m.ch := by
  rw [wm.lhC_eq] at hlh
  injection hlh with hlh
  rw [← hlh]
  exact ⟨wm.lh_valid, wm.lh_length, rfl⟩

theorem cyc_pow {m : Method} (wm : m.WF) {lh : Row} (hlh : Method.lhC m = .ok lh)
    (hcyc : ∀ i, 0 < i → i < m.b → ∃ k, iter (bellAt lh) k (m.b - 1) = i) :
    ∀ i, 0 < i → i ≤ m.b - 1 → ∃ j : Nat, (Q m.b m.ch ^ j) (m.b - 1) = i := by
  obtain ⟨v, -, e⟩ := lh_eq_Q wm hlh
  intro i h1 h2
  obtain ⟨k, hk⟩ := hcyc i h1 (by omega)
  refine ⟨k, ?_⟩
  rw [← e, ← iter_perm, ← hk]
  congr 1
  funext j
  rw [permOf_apply v, bellAt_eq_fn]

/-- The lead head of such a method is a rotation. -/
theorem lh_rotation {m : Method} (wm : m.WF) (he : m.b % 2 = 0) (h8 : 8 ≤ m.b) {lh : Row} (hlh : Method.lhC m = .ok lh)
    (h0 : bellAt lh 0 = 0) (hcyc : ∀ i, 0 < i → i < m.b → ∃ k, iter (bellAt lh) k (m.b - 1) = i) {i : Nat}
    (hi : Row.ispblh0C lh = .ok i) (hi0 : i ≠ 0) : ∃ k, Dih (m.b - 1) (Q m.b m.ch) 1 k := by
  have hb := wm.1
  obtain ⟨v, l, e⟩ := lh_eq_Q wm hlh
  have hne : bellAt lh 1 ≠ 1 := by
    intro h1
    obtain ⟨k, hk⟩ := cyc_pow wm hlh hcyc 1 (by omega) (by omega)
    have hf : (Q m.b m.ch ^ k) 1 = 1 := by
      have hq : Q m.b m.ch 1 = 1 := by rw [← e, permOf_apply v, ← bellAt_eq_fn, h1]
      clear hk
      induction k with
      | zero => rfl
      | succ k ih => rw [pow_succ, Equiv.Perm.mul_apply, hq, ih]
    have := (Q m.b m.ch ^ k).injective (hk.trans hf.symm)
    omega
  obtain ⟨h, hh0, hh1, hh2, hh3, hh4⟩ := (C46_ispblh0 lh).2.2 (by rintro rfl; simp at l; omega) h0
  have h1 : h = 1 := by
    by_contra hc
    exact hne (hh2 1 (by omega))
  subst h1
  have hp : Row.pblhC lh.length 1 = .ok (firstLeadHead m.b) := by rw [l]; exact pblhC_first he h8 hb
  obtain ⟨k, hk, hk'⟩ := C46_ispblh (by omega) 1 hp
  rw [← hh4, hi] at hk
  injection hk with hk
  subst hk
  rcases hk' with ⟨-, -, hk, -⟩ | ⟨hk, -⟩
  · have vf := valid_firstLeadHead he (by omega : 4 ≤ m.b) (by omega)
    have : Q m.b m.ch = permOf (firstLeadHead m.b) ^ i := by
      ext j
      rw [← e, permOf_apply v, ← bellAt_eq_fn, hk, ← iter_perm]
      congr 1
      funext j
      rw [permOf_apply vf, bellAt_eq_fn]
    rw [this]
    exact ⟨_, dih_pow he (by omega) (by omega) i⟩
  · exact absurd hk hi0

theorem Q_change {b : Nat} {c : Change} (hw : c.WF) (hn : c.n = b) (i : Nat) : Q b [c] i = c.pos i := by
  have hb : b ≤ 256 := by have := hw.1; omega
  unfold Q
  rw [permOf_apply (Q_valid hb (by simpa using hw))]
  show Row.fn (Row.apply (Row.rounds b) c) i = _
  rw [Row.fn_apply hw, Row.fn_rounds]

theorem places_seconds {z : Change} (hz : z.WF) {b : Nat} (hn : z.n = b) (h8 : 8 ≤ b) (h : z.places = [0, 1]) :
    z.swaps = Change.swapsBetween 256 2 b := by
  have hb := hz.1
  have e := hz.ofPlacesC_places
  rw [h, hn] at e
  have t : toBell b = b := by unfold toBell; omega
  have z0 : Change.swapsBetween 256 0 0 = [] := by decide
  have z1 : Change.swapsBetween 256 1 1 = [] := by decide
  unfold Change.ofPlacesC Change.ofPlacesLoop at e
  rw [if_neg (by omega)] at e
  unfold Change.ofPlacesLoop at e
  simp only at e
  rw [if_neg (by omega)] at e
  unfold Change.ofPlacesLoop at e
  rw [t] at e
  have e' : Out.ok (⟨b, [] ++ Change.swapsBetween 256 0 0 ++ Change.swapsBetween 256 1 1 ++ Change.swapsBetween 256 2 b⟩ : Change) = .ok z := e
  rw [z0, z1] at e'
  injection e' with e'
  rw [← e']; rfl

theorem places_last {z : Change} (hz : z.WF) {b : Nat} (hn : z.n = b) (he : b % 2 = 0) (h8 : 8 ≤ b) (h : z.places = [0, b - 1]) :
    z.swaps = Change.swapsBetween 256 1 (b - 1) := by
  have hb := hz.1
  have e := hz.ofPlacesC_places
  rw [h, hn] at e
  have t : toBell b = b := by unfold toBell; omega
  have z0 : Change.swapsBetween 256 0 0 = [] := by decide
  have z1 : Change.swapsBetween 256 b b = [] := by
    show (if b + 1 < b then _ else _) = _
    rw [if_neg (by omega)]
  unfold Change.ofPlacesC Change.ofPlacesLoop at e
  rw [if_neg (by omega)] at e
  unfold Change.ofPlacesLoop at e
  simp only at e
  rw [if_neg (by omega)] at e
  unfold Change.ofPlacesLoop at e
  rw [t, if_neg (by simp), show b - 1 + 1 = b by omega] at e
  rw [if_neg (by simp)] at e
  rw [z0, z1] at e
  injection e with e
  rw [← e]; simp

theorem dih_seconds_change {z : Change} (hz : z.WF) {b : Nat} (hn : z.n = b) (he : b % 2 = 0) (h8 : 8 ≤ b)
    (h : z.places = [0, 1]) : Dih (b - 1) (Q b [z]) (-1) 0 := by
  have hb := hz.1
  have : Q b [z] = permOf (seconds b) := by
    ext i
    rw [Q_change hz hn, permOf_apply (valid_seconds he (by omega)), hz.pos_eq, places_seconds hz hn h8 h]
    have hm := fun x => Change.mem_swapsBetween (fuel := 256) (s := 2) (te := b) (by omega) x
    unfold moveTo
    simp only [hm]
    by_cases hi : i < b
    · rw [seconds, Row.fn_map_range hi]
      split_ifs <;> omega
    · rw [Row.fn_of_ge (by simpa [seconds] using hi)]
      split_ifs <;> omega
  rw [this]
  exact dih_seconds he (by omega) (by omega)

theorem dih_last_change {z : Change} (hz : z.WF) {b : Nat} (hn : z.n = b) (he : b % 2 = 0) (h8 : 8 ≤ b)
    (h : z.places = [0, b - 1]) : Dih (b - 1) (Q b [z]) (-1) (-1) := by
  have hb := hz.1
  have hq : ∀ i, Q b [z] i = if i = 0 ∨ b - 1 ≤ i then i else if i % 2 = 1 then i + 1 else i - 1 := by
    intro i
    rw [Q_change hz hn, hz.pos_eq, places_last hz hn he h8 h]
    have hm := fun x => Change.mem_swapsBetween (fuel := 256) (s := 1) (te := b - 1) (by omega) x
    unfold moveTo
    simp only [hm]
    split_ifs <;> omega
  refine ⟨Or.inr rfl, by rw [hq]; simp, fun v hv => by rw [hq, if_pos (by omega)], fun v h1 h2 => ?_⟩
  rw [hq]
  unfold lab
  rw [show ((-1 : Int) : ZMod (b - 1)) * ((labZ v : Int) : ZMod (b - 1)) + (-1) = ((-labZ v - 1 : Int) : ZMod (b - 1)) by
    push_cast; ring]
  by_cases c1 : v = b - 1
  · rw [if_pos (by omega), cast_eq]
    unfold labZ
    rw [if_pos (by omega)]
    exact ⟨-1, by omega⟩
  · rw [if_neg (by omega)]
    congr 1
    by_cases c2 : v % 2 = 1
    · rw [if_pos c2]; unfold labZ; rw [if_neg (by omega), if_pos (by omega)]; omega
    · rw [if_neg c2]; unfold labZ; rw [if_pos (by omega), if_neg (by omega)]; omega

/-- C67: for a palindromic method with the lead end change `12` or `1n` and a plain bob lead head that takes the tenor
to every position, a course head with the tenors together is false if and only if its symbol is one of the symbols of the
method. -/
theorem C67_determines {c : Option Table} (hc : Cached c) {m : Method} {flags : Nat} (he : m.b % 2 = 0) (h8 : 8 ≤ m.b)
    (hb : m.b ≤ 255) (hm : ∀ c ∈ m.ch, IsChange c.n c.swaps ∧ c.n = m.b) {lh : Row} (hlh : Method.lhC m = .ok lh)
    (h0 : bellAt lh 0 = 0) (hcyc : ∀ i, 0 < i → i < m.b → ∃ k, iter (bellAt lh) k (m.b - 1) = i) {i : Nat}
    (hi : Row.ispblh0C lh = .ok i) (hi0 : i ≠ 0) {ps : List Change} {z : Change} (hch : m.ch = ps ++ [z])
    (hpal : ps.reverse = ps) (hz : z.places = [0, 1] ∨ z.places = [0, m.b - 1])
    (hf : flags.testBit 1 = true) (hf' : flags.testBit 0 = false) :
    ∃ (N : Nat) (t : List Row) (ns : List (List Char)), (∀ fuel, N ≤ fuel → falseCoursesC fuel m flags = .ok t) ∧
      symbolsC c t flags lh = .ok ns.flatten ∧
      ∀ r, IsRow r → r.length = m.b → bellAt r 0 = 0 → (∀ i, 6 ≤ i → bellAt r i = i) →
        ((∃ x, InCourse m (Row.roundsC m.b) x ∧ InCourse m r x) ↔ ∃ n ∈ ns, lookupSymbolC c r = .ok n) := by
  have wm : m.WF := ⟨hb, hm⟩
  obtain ⟨N, t, ns, h1, h2, -, h3⟩ := C67_method hc (flags := flags) he h8 hb hm hlh h0 hcyc hi hi0 hf
  obtain ⟨k, hk⟩ := lh_rotation wm he h8 hlh h0 hcyc hi hi0
  have wz := hm z (by rw [hch]; simp)
  have hr : Regular m ps z k := ⟨he, h8, hb, hch, hm, hpal, hk, cyc_pow wm hlh hcyc, by
    rcases hz with hz | hz
    · exact ⟨_, dih_seconds_change wz.1 wz.2 he h8 hz⟩
    · exact ⟨_, dih_last_change wz.1 wz.2 he h8 hz⟩⟩
  refine ⟨N, t, ns, h1, h2, fun r r1 r2 r3 r4 => ?_⟩
  have vr := (isRow_iff_valid _).1 r1
  obtain ⟨s, s1, s2, s3⟩ := C67_together hc he h8 hb r1 r2 r3 r4
  constructor
  · intro hx
    exact ⟨s, (h3 s).2 ⟨r, s3, r1, r2, r3, r4, by rw [hf']; simp, hx⟩, s1⟩
  · rintro ⟨n, hn, e⟩
    rw [s1] at e
    injection e with e
    subst e
    obtain ⟨r', q1, q2, q3, q4, q5, -, q7⟩ := (h3 s).1 hn
    have vr' := (isRow_iff_valid _).1 q2
    rw [common_iff wm vr' q3] at q7
    rw [common_iff wm vr r2]
    obtain ⟨s', k1, k2, k3⟩ := C67_together hc he h8 hb q2 q3 q4 q5
    have es : s' = s := hasSymbol_unique he h8 (by omega) k3 q1
    rw [es] at k1
    obtain ⟨d, hd, e, hee, hy⟩ := (C67_same hc hc he h8 hb q2 q3 r1 r2 k1 s1 s2).1 rfl
    exact hr.same q7 hd hee hy

/-- Plain Bob Major. -/
def plainBobMajor : Method :=
  let x : Change := ⟨8, [0, 2, 4, 6]⟩
  let n : Change := ⟨8, [1, 3, 5]⟩
  ⟨8, [x, n, x, n, x, n, x, n, x, n, x, n, x, n, x, ⟨8, [2, 4, 6]⟩]⟩

/-- The hypotheses are met by Plain Bob Major. -/
example : ∃ (N : Nat) (t : List Row) (ns : List (List Char)),
    (∀ fuel, N ≤ fuel → falseCoursesC fuel plainBobMajor 2 = .ok t) ∧
      symbolsC none t 2 [0, 2, 4, 1, 6, 3, 7, 5] = .ok ns.flatten ∧
      ∀ r, IsRow r → r.length = 8 → bellAt r 0 = 0 → (∀ i, 6 ≤ i → bellAt r i = i) →
        ((∃ x, InCourse plainBobMajor (Row.roundsC 8) x ∧ InCourse plainBobMajor r x) ↔
          ∃ n ∈ ns, lookupSymbolC none r = .ok n) := by
  have hc : ∀ i, i < 8 → 0 < i → ∃ k, k < 7 ∧ iter (bellAt [0, 2, 4, 1, 6, 3, 7, 5]) k 7 = i := by decide
  exact C67_determines (m := plainBobMajor) (i := 1) (ps := plainBobMajor.ch.take 15) (z := ⟨8, [2, 4, 6]⟩) .none (by decide)
    (by decide) (by decide) (fun c h => by
      have w : ∀ c ∈ plainBobMajor.ch, c.n = 8 ∧ (c.swaps = [0, 2, 4, 6] ∨ c.swaps = [1, 3, 5] ∨ c.swaps = [2, 4, 6]) := by
        decide
      obtain ⟨w1, w2⟩ := w c h
      refine ⟨?_, w1⟩
      rw [w1]
      rcases w2 with w2 | w2 | w2 <;> rw [w2] <;> exact ⟨by omega, by decide, by decide⟩)
    (by decide +kernel) (by decide)
    (fun i h1 h2 => (hc i h2 h1).imp fun k hk => hk.2) (by decide +kernel) (by decide) (by decide) (by decide)
    (Or.inl (by decide)) (by decide) (by decide)

end Falseness
end Ringing
