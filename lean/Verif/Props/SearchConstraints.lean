import Verif.Lemmas.MethodUtils2
import Verif.Props.MethodUtils

/-! C77: the constraints of methsearch. -/
namespace Ringing
open Spec Row MethodUtils

/-- C77: `is_cyclic_le` holds exactly when the hunt bells are in place and the other bells are
shifted cyclically, rounds excepted.  With no bell besides the hunt bells the access is undefined. -/
theorem C77_cyclic {lh : Row} (hr : IsRow lh) {hunts : Nat} :
    (lh.length ≤ hunts → isCyclicLeC lh hunts = .ub) ∧
    (hunts < lh.length → ∃ r, isCyclicLeC lh hunts = .ok r ∧ (r = true ↔ CyclicShift lh hunts)) := by
  have hv := (isRow_iff_valid lh).1 hr
  constructor
  · intro hle
    unfold isCyclicLeC
    rw [vget_ub (by omega)]; rfl
  intro hh
  have hfn : ∀ {i} (h : i < lh.length), lh[i] = fn lh i := fun h => (fn_of_lt h).symm
  have hget : ∀ {i}, i < lh.length → vget lh i = .ok (fn lh i) := by
    intro i hi; rw [vget_ok hi, hfn]
  have hget? : ∀ {i}, i < lh.length → lh[i]? = some (fn lh i) := by
    intro i hi; rw [List.getElem?_eq_getElem hi, hfn]
  have hlt : ∀ {i}, i < lh.length → fn lh i < lh.length := fun hi => hv.fn_lt_len hi
  unfold isCyclicLeC
  rw [hget hh, Out.ok_bind]
  set N := lh.length - hunts with hN
  have hNpos : 0 < N := by omega
  by_cases hx : fn lh hunts = hunts
  · rw [if_pos hx]
    refine ⟨false, rfl, ?_⟩
    simp only [Bool.false_eq_true, false_iff]
    rintro ⟨-, k, h1, h2, h3⟩
    have := h3 hunts le_rfl hh
    rw [hget? hh, hx, Nat.sub_self, Nat.zero_add, ← hN, Nat.mod_eq_of_lt h2] at this
    have := Option.some.inj this
    omega
  rw [if_neg hx]
  obtain ⟨a, a1, a2⟩ := allUp_dec (lo := 0) (hi := hunts)
    (f := fun i => do
      let x ← vget lh i
      pure (decide (x = i)))
    (P := fun i => fn lh i = i)
    (by intro i _ hi; exact ⟨_, by rw [hget (by omega)]; rfl, by simp⟩)
  rw [a1, Out.ok_bind]
  cases a with
  | false =>
    refine ⟨false, rfl, ?_⟩
    simp only [Bool.false_eq_true, false_iff] at a2 ⊢
    rintro ⟨h1, -⟩
    apply a2
    intro i _ hi
    have := h1 i hi
    rw [hget? (by omega)] at this
    exact Option.some.inj this
  | true =>
    have hfix := a2.1 rfl
    have hge : ∀ {i}, hunts ≤ i → i < lh.length → hunts ≤ fn lh i := by
      intro i h1 h2
      by_contra h3
      have h4 := hfix (fn lh i) (by omega) (by omega)
      have := hv.fn_inj h4
      omega
    rw [if_pos rfl]
    obtain ⟨b, b1, b2⟩ := allUp_dec (lo := hunts + 1) (hi := lh.length)
      (f := fun i => do
        let x ← vget lh i
        let y ← vget lh (i - 1)
        pure (decide (Int.tmod ((x : Int) - hunts) ((lh.length : Int) - hunts) =
          Int.tmod ((y : Int) + 1 - hunts) ((lh.length : Int) - hunts))))
      (P := fun i => fn lh i - hunts = (fn lh (i - 1) - hunts + 1) % N)
      (by
        intro i h1 h2
        refine ⟨_, by rw [hget h2, hget (by omega)]; rfl, ?_⟩
        rw [decide_eq_true_iff]
        have e1 := hge (i := i) (by omega) h2
        have e2 := hge (i := i - 1) (by omega) (by omega)
        have e3 := hlt h2
        rw [show ((fn lh i : Nat) : Int) - hunts = ((fn lh i - hunts : Nat) : Int) by omega,
          show ((fn lh (i - 1) : Nat) : Int) + 1 - hunts = ((fn lh (i - 1) - hunts + 1 : Nat) : Int) by omega,
          show (lh.length : Int) - hunts = (N : Int) by omega,
          Int.tmod_eq_emod_of_nonneg (by omega), Int.tmod_eq_emod_of_nonneg (by omega), ← Int.natCast_mod,
          ← Int.natCast_mod, Int.natCast_inj, Nat.mod_eq_of_lt (a := fn lh i - hunts) (by omega)])
    refine ⟨b, b1, b2.trans ?_⟩
    have hx0 := hge le_rfl hh
    have hx1 := hlt hh
    constructor
    · intro h
      refine ⟨fun i hi => by rw [hget? (by omega), hfix i (by omega) hi], fn lh hunts - hunts, by omega, by omega, ?_⟩
      intro i h1 h2
      rw [hget? h2]
      congr 1
      have key : fn lh i - hunts = (i - hunts + (fn lh hunts - hunts)) % N := by
        obtain ⟨d, rfl⟩ : ∃ d, i = hunts + d := ⟨i - hunts, by omega⟩
        clear h1
        induction d with
        | zero => simp only [Nat.add_zero, Nat.sub_self, Nat.zero_add]; rw [Nat.mod_eq_of_lt (by omega)]
        | succ d ih =>
          have := h (hunts + (d + 1)) (by omega) h2
          rw [this, show hunts + (d + 1) - 1 = hunts + d by omega, ih (by omega), Nat.mod_add_mod]
          congr 1; omega
      have := hge h1 h2
      rw [← hN, ← key]; omega
    · rintro ⟨-, k, h1, h2, h3⟩ i h4 h5
      have e1 := h3 i (by omega) h5
      have e2 := h3 (i - 1) (by omega) (by omega)
      rw [hget? h5] at e1
      rw [hget? (by omega)] at e2
      rw [Option.some.inj e1, Option.some.inj e2, ← hN, Nat.add_sub_cancel_left, Nat.add_sub_cancel_left, Nat.mod_add_mod]
      congr 1; omega

/-- 1342 is a cyclic lead end with the treble as hunt bell; 1432 is not. -/
example : isCyclicLeC [0, 2, 3, 1] 1 = .ok true ∧ isCyclicLeC [0, 3, 2, 1] 1 = .ok false ∧
    CyclicShift [0, 2, 3, 1] 1 := by
  refine ⟨by decide +kernel, by decide +kernel, by decide +kernel, 1, by decide, by decide, ?_⟩
  decide +kernel

/-- C77: with at least three changes in the division, and unless this change ends the division,
`is_division_false` holds exactly when the change leads to a row that the division already has. -/
theorem C77_division_false {m : Method} {c : Change} {ds len : Nat} (hb : m.b ≤ 255)
    (hm : ∀ c ∈ m.ch, IsChange c.n c.swaps ∧ c.n = m.b) (hc : IsChange c.n c.swaps) (hn : c.n = m.b)
    (hl : m.ch.length < 2 ^ 63) (h1 : 0 < len) (h2 : len < 2 ^ 63) (hds : ds ≤ m.ch.length) :
    ((m.ch.length - ds < 3 ∨ m.ch.length - ds + 1 = len) → isDivisionFalseC m c ds len = .ok false) ∧
    (3 ≤ m.ch.length - ds → m.ch.length - ds + 1 ≠ len → ∃ r, isDivisionFalseC m c ds len = .ok r ∧
      (r = true ↔ ∃ k, k ≤ m.ch.length - ds ∧
        SameAfter m.b (((m.ch.map Change.swaps).drop ds).take k)
          ((m.ch.map Change.swaps).drop ds ++ [c.swaps]))) := by
  have e1 : subSize m.length ds = m.ch.length - ds := by
    unfold subSize; show (m.ch.length + 2 ^ 64 - ds) % 2 ^ 64 = _; omega
  have e2 : subSize len 1 = len - 1 := by unfold subSize; omega
  unfold isDivisionFalseC
  simp only [e1, e2]
  constructor
  · intro h
    rw [if_pos (by omega)]; rfl
  · intro h3 h4
    rw [if_neg (by omega)]
    have hd : ∀ x ∈ m.ch.drop ds, IsChange x.n x.swaps ∧ x.n = m.b := fun x hx => hm x (List.mem_of_mem_drop hx)
    rw [hn, divRows_rounds hb (fun x hx => (hd x hx).1), Out.ok_bind]
    simp only
    rw [applyC_eq hc, Out.ok_bind]
    refine ⟨_, rfl, ?_⟩
    rw [decide_eq_true_iff, List.mem_map]
    have hall : apply (applyAll (rounds m.b) (m.ch.drop ds)) c = applyAll (rounds m.b) (m.ch.drop ds ++ [c]) := by
      unfold applyAll; rw [List.foldl_append]; rfl
    rw [hall]
    have hd' : ∀ x ∈ m.ch.drop ds ++ [c], IsChange x.n x.swaps ∧ x.n = m.b := by
      intro x hx
      rcases List.mem_append.1 hx with hx | hx
      · exact hd x hx
      · rw [List.mem_singleton.1 hx]; exact ⟨hc, hn⟩
    have key : ∀ k, applyAll (rounds m.b) ((m.ch.drop ds).take k) = applyAll (rounds m.b) (m.ch.drop ds ++ [c]) ↔
        SameAfter m.b (((m.ch.map Change.swaps).drop ds).take k) ((m.ch.map Change.swaps).drop ds ++ [c.swaps]) := by
      intro k
      rw [applyAll_eq_iff hb (fun x hx => hd x (List.mem_of_mem_take hx)) hd']
      simp [List.map_take, List.map_drop]
    constructor
    · rintro ⟨k, hk, e⟩
      rw [List.mem_range, List.length_drop] at hk
      exact ⟨k, by omega, (key k).1 e⟩
    · rintro ⟨k, hk, e⟩
      exact ⟨k, by rw [List.mem_range, List.length_drop]; omega, (key k).2 e⟩

/-- After x.14.x in a division of eight, 14 is not false but x is. -/
example : isDivisionFalseC ⟨4, [⟨4, [0, 2]⟩, ⟨4, [1]⟩, ⟨4, [0, 2]⟩]⟩ ⟨4, [1]⟩ 0 8 = .ok false ∧
    isDivisionFalseC ⟨4, [⟨4, [0, 2]⟩, ⟨4, [1]⟩, ⟨4, [0, 2]⟩]⟩ ⟨4, [0, 2]⟩ 0 8 = .ok true := by
  decide +kernel

/-- C77, a finding: after 34 and 12 on four bells the change x comes back to the first row of the
division, but `is_division_false` does not look as there are only two changes. -/
theorem C77_division_missed :
    isDivisionFalseC ⟨4, [⟨4, [0]⟩, ⟨4, [2]⟩]⟩ ⟨4, [0, 2]⟩ 0 8 = .ok false ∧
      SameAfter 4 [] [[0], [2], [0, 2]] := by
  refine ⟨by decide +kernel, ?_⟩
  have : ∀ p, p < 4 → follow [] p = follow [[0], [2], [0, 2]] p := by decide
  exact this

/-- C77: `is_too_many_places` holds exactly when the change makes a place in which, with the changes
rung before it up to the one at the stop offset, there are more than the allowed consecutive blows. -/
theorem C77_too_many_places {m : Method} {c : Change} {max st : Nat}
    (hm : ∀ c ∈ m.ch, IsChange c.n c.swaps ∧ c.n = m.b) (hc : IsChange c.n c.swaps) (hn : c.n = m.b) :
    ∃ r, isTooManyPlacesC m c max st = .ok r ∧
      (r = true ↔ ∃ p, IsPlace m.b c.swaps p ∧ ∃ k, k ≤ m.ch.length ∧ max < k + 2 ∧
        ∀ o ss, m.ch.length - k ≤ o → (m.ch.map Change.swaps)[o]? = some ss → o ≠ st ∧ IsPlace m.b ss p) := by
  obtain ⟨r, h1, h2⟩ := anyUp_dec (lo := 0) (hi := c.n)
    (f := fun i => if c.findplace i then do
        let count ← placesRun m i st m.length 2
        pure (decide (count > max))
      else pure false)
    (P := fun p => IsPlace m.b c.swaps p ∧ ∃ k, k ≤ m.ch.length ∧ max < k + 2 ∧
        ∀ o ss, m.ch.length - k ≤ o → (m.ch.map Change.swaps)[o]? = some ss → o ≠ st ∧ IsPlace m.b ss p)
    (by
      intro i _ hi
      have hp : c.findplace i = true ↔ IsPlace m.b c.swaps i := by
        rw [Change.WF.findplace_eq hc, ← hn]; unfold IsPlace; simp [hi]
      by_cases hf : c.findplace i = true
      · rw [if_pos hf]
        obtain ⟨x, e1, e2, e3, e4, e5⟩ := placesRun_spec hm (i := i) (st := st) (by omega)
          (fuel := m.ch.length) (count := 2) le_rfl rfl
        have e1 : placesRun m i st m.length 2 = .ok x := e1
        refine ⟨_, by rw [e1]; rfl, ?_⟩
        rw [decide_eq_true_iff]
        constructor
        · intro hx
          refine ⟨hp.1 hf, x - 2, by omega, by omega, fun o ss h3 h4 => ?_⟩
          rw [List.getElem?_map] at h4
          obtain ⟨d, hd1, hd2⟩ := Option.map_eq_some_iff.1 h4
          have hlt := (List.getElem?_eq_some_iff.1 hd1).1
          rw [← hd2]
          exact e4 o d (by omega) (by omega) hd1
        · rintro ⟨-, k, h3, h4, h5⟩
          by_contra hx
          rcases e5 with e5 | ⟨d, hd1, hd2⟩
          · omega
          · have := h5 (m.ch.length + 1 - x) d.swaps (by omega) (by rw [List.getElem?_map, hd1]; rfl)
            rcases hd2 with hd2 | hd2
            · exact this.1 hd2
            · exact hd2 this.2
      · rw [if_neg hf]
        exact ⟨false, rfl, by simp; intro h; exact absurd (hp.2 h) hf⟩)
  refine ⟨r, h1, h2.trans ?_⟩
  constructor
  · rintro ⟨p, -, -, h⟩; exact ⟨p, h⟩
  · rintro ⟨p, h⟩; exact ⟨p, by omega, by have := h.1.1; omega, h⟩

/-- With at most two blows, 14 after 14 is refused, unless the search stops at the previous change. -/
example : isTooManyPlacesC ⟨4, [⟨4, [0, 2]⟩, ⟨4, [1]⟩]⟩ ⟨4, [1]⟩ 2 (2 ^ 64 - 1) = .ok true ∧
    isTooManyPlacesC ⟨4, [⟨4, [0, 2]⟩, ⟨4, [1]⟩]⟩ ⟨4, [1]⟩ 3 (2 ^ 64 - 1) = .ok false ∧
    isTooManyPlacesC ⟨4, [⟨4, [0, 2]⟩, ⟨4, [1]⟩]⟩ ⟨4, [1]⟩ 2 1 = .ok false := by decide +kernel

/-- C77: `has_consec_places` holds exactly when more than the allowed number of adjacent bells stay
in their places. -/
theorem C77_consec_places {c : Change} (hc : IsChange c.n c.swaps) (max : Nat) :
    hasConsecPlaces c max = true ↔
      ∃ s, s + max < c.n ∧ ∀ j, s ≤ j → j ≤ s + max → IsPlace c.n c.swaps j := by
  unfold hasConsecPlaces
  rw [decide_eq_true_iff, consecLoop_spec hc max (by omega) (by omega) (by intro j h1 h2; omega)]
  constructor
  · rintro (h | ⟨s, -, h2, h3⟩)
    · omega
    · exact ⟨s, h2, h3⟩
  · rintro ⟨s, h2, h3⟩; exact Or.inr ⟨s, by omega, h2, h3⟩

example : hasConsecPlaces ⟨6, [4]⟩ 3 = true ∧ hasConsecPlaces ⟨6, [4]⟩ 4 = false ∧
    hasConsecPlaces ⟨6, [1, 4]⟩ 1 = false := by decide +kernel

/-- C77: at the end of a division of the given length, `division_bad_parity_hack` is false exactly
when, at each stroke, as many rows of the division are even as are odd. -/
theorem C77_bad_parity {m : Method} {c : Change} {ds len : Nat} (hb : m.b ≤ 255)
    (hm : ∀ c ∈ m.ch, IsChange c.n c.swaps ∧ c.n = m.b) (hc : IsChange c.n c.swaps) (hn : c.n = m.b) :
    (m.ch.length - ds + 2 ≠ len → divisionBadParityC m c ds len = .ub) ∧
    (m.ch.length - ds + 2 = len → ∃ r, divisionBadParityC m c ds len = .ok r ∧
      (r = false ↔ ∀ s, s < 2 →
        ((List.range len).filter fun k => k % 2 = s ∧
          oddAfter (((m.ch.map Change.swaps).drop ds ++ [c.swaps]).take k) = false).length =
        ((List.range len).filter fun k => k % 2 = s ∧
          oddAfter (((m.ch.map Change.swaps).drop ds ++ [c.swaps]).take k) = true).length)) := by
  have hd : ∀ x ∈ m.ch.drop ds, IsChange x.n x.swaps ∧ x.n = m.b := fun x hx => hm x (List.mem_of_mem_drop hx)
  unfold divisionBadParityC
  simp only [hn, divRows_rounds hb (fun x hx => (hd x hx).1), Out.ok_bind, applyC_eq hc]
  have hall : apply (applyAll (rounds m.b) (m.ch.drop ds)) c = applyAll (rounds m.b) (m.ch.drop ds ++ [c]) := by
    unfold applyAll; rw [List.foldl_append]; rfl
  have hrows : (List.range ((m.ch.drop ds).length + 1)).map (fun k => applyAll (rounds m.b) ((m.ch.drop ds).take k)) ++
      [apply (applyAll (rounds m.b) (m.ch.drop ds)) c] =
      (List.range' 0 ((m.ch.drop ds).length + 2)).map fun k => applyAll (rounds m.b) ((m.ch.drop ds ++ [c]).take k) := by
    rw [hall, ← List.range_eq_range', List.range_succ (n := (m.ch.drop ds).length + 1), List.map_append]
    congr 1
    · apply List.map_congr_left
      intro k hk
      rw [List.mem_range] at hk
      rw [List.take_append_of_le_length (by omega)]
    · rw [List.map_singleton, List.take_of_length_le (by simp)]
  rw [hrows, List.length_map, List.length_range', List.length_drop]
  constructor
  · intro h; rw [if_neg h]
  · intro h
    rw [if_pos h]
    have hd' : ∀ x ∈ m.ch.drop ds ++ [c], IsChange x.n x.swaps ∧ x.n = m.b := by
      intro x hx
      rcases List.mem_append.1 hx with hx | hx
      · exact hd x hx
      · rw [List.mem_singleton.1 hx]; exact ⟨hc, hn⟩
    have sgn : ∀ {cs : List Change}, (∀ x ∈ cs, IsChange x.n x.swaps ∧ x.n = m.b) → ∀ {r : Row}, Valid r →
        Row.sign (applyAll r cs) = Row.sign r * (if oddAfter (cs.map Change.swaps) then -1 else 1) ∧
          Valid (applyAll r cs) := by
      intro cs
      induction cs with
      | nil => intro _ r hr; exact ⟨by simp [applyAll, oddAfter], hr⟩
      | cons x cs ih =>
        intro hx r hr
        have hxw : x.WF := (hx x (by simp)).1
        obtain ⟨i1, i2⟩ := ih (fun y hy => hx y (by simp [hy])) (valid_apply hxw hr)
        refine ⟨?_, i2⟩
        show Row.sign (applyAll (apply r x) cs) = _
        rw [i1, hxw.sign_apply hr, mul_assoc]
        congr 1
        have hcs : x.sign = if x.swaps.length % 2 = 1 then -1 else 1 := by
          unfold Change.sign
          split
          · rename_i h0
            have : x.swaps = [] := by
              cases hs : x.swaps with
              | nil => rfl
              | cons s ss => have := hxw.2.2 s (by rw [hs]; simp); omega
            simp [this]
          · rfl
        rw [hcs]
        unfold oddAfter
        simp only [List.map_cons, List.sum_cons, decide_eq_true_iff]
        generalize ((cs.map Change.swaps).map List.length).sum = t
        generalize x.swaps.length = u
        rcases Nat.mod_two_eq_zero_or_one u with e1 | e1 <;>
          rcases Nat.mod_two_eq_zero_or_one t with e2 | e2 <;>
          simp [e1, e2, Nat.add_mod]
    rw [parityLoop_spec (od := fun k => oddAfter (((m.ch.map Change.swaps).drop ds ++ [c.swaps]).take k)) (by
      intro k _ _
      obtain ⟨s1, s2⟩ := sgn (cs := (m.ch.drop ds ++ [c]).take k) (fun x hx => hd' x (List.mem_of_mem_take hx))
        (valid_rounds (n := m.b) (by omega))
      rw [signC_eq s2, s1, sign_rounds (by omega), one_mul]
      simp [List.map_take, List.map_drop])]
    simp only [Out.ok_bind, Nat.zero_add]
    refine ⟨_, rfl, ?_⟩
    rw [decide_eq_false_iff_not, not_or, not_not, not_not, h, ← List.range_eq_range']
    constructor
    · rintro ⟨a, b⟩ s hs
      rcases (by omega : s = 0 ∨ s = 1) with rfl | rfl
      · exact a
      · exact b
    · intro h; exact ⟨h 0 (by omega), h 1 (by omega)⟩

/-- A division x.12.x (four rows): the rows have signs + + - -, so at each stroke one is even and one
odd; with x.14.12 they are + + - +. -/
example : divisionBadParityC ⟨4, [⟨4, [0, 2]⟩, ⟨4, [2]⟩]⟩ ⟨4, [0, 2]⟩ 0 4 = .ok false ∧
    divisionBadParityC ⟨4, [⟨4, [0, 2]⟩, ⟨4, [1]⟩]⟩ ⟨4, [2]⟩ 0 4 = .ok true := by decide +kernel

end Ringing
