import Verif.Lemmas.MethodUtils

namespace Ringing
open Spec Row MethodUtils

/-- The loop collecting the rows of a division. -/
theorem divRows_eq : ∀ {cs : List Change} {r : Row} {rows : List Row}, (∀ c ∈ cs, c.WF) →
    divRows cs r rows = .ok (rows ++ (List.range cs.length).map (fun k => applyAll r (cs.take (k + 1))),
      applyAll r cs) := by
  intro cs
  induction cs with
  | nil => intro r rows _; simp [divRows, applyAll]
  | cons c cs ih =>
    intro r rows h
    rw [divRows, applyC_eq (h c (by simp)), Out.ok_bind, ih (fun d hd => h d (by simp [hd]))]
    congr 1
    rw [Prod.mk.injEq]
    refine ⟨?_, rfl⟩
    rw [List.append_assoc, List.length_cons, List.range_succ_eq_map, List.map_cons, List.map_map]
    congr 1

/-- All the rows of a division, rounds included. -/
theorem divRows_rounds {b : Nat} (hb : b ≤ 255) {cs : List Change} (h : ∀ c ∈ cs, c.WF) :
    divRows cs (roundsC b) [roundsC b] = .ok ((List.range (cs.length + 1)).map
      (fun k => applyAll (rounds b) (cs.take k)), applyAll (rounds b) cs) := by
  rw [divRows_eq h, roundsC_eq (by omega)]
  congr 1
  rw [Prod.mk.injEq]
  refine ⟨?_, rfl⟩
  rw [List.range_succ_eq_map, List.map_cons, List.map_map]
  rfl

theorem applyAll_wf {b : Nat} (hb : b ≤ 255) {cs : List Change} (h : ∀ c ∈ cs, IsChange c.n c.swaps ∧ c.n = b) :
    IsRow (applyAll (rounds b) cs) ∧ (applyAll (rounds b) cs).length = b ∧
      ∀ p, bellAt (applyAll (rounds b) cs) (follow (cs.map Change.swaps) p) = p := by
  obtain ⟨r, h1, h2, h3, h4⟩ := C19_lead_head (m := ⟨b, cs⟩) hb h
  have hw : Method.WF ⟨b, cs⟩ := ⟨hb, h⟩
  rw [hw.lhC_eq] at h1
  have e : Method.lh ⟨b, cs⟩ = r := by simpa using h1
  have e' : Method.lh ⟨b, cs⟩ = applyAll (rounds b) cs := rfl
  rw [← e', e]
  exact ⟨h2, h3, h4⟩

/-- Two rows reached from rounds are equal exactly when every bell is in the same place. -/
theorem applyAll_eq_iff {b : Nat} (hb : b ≤ 255) {cs ds : List Change}
    (h : ∀ c ∈ cs, IsChange c.n c.swaps ∧ c.n = b) (h' : ∀ c ∈ ds, IsChange c.n c.swaps ∧ c.n = b) :
    applyAll (rounds b) cs = applyAll (rounds b) ds ↔
      SameAfter b (cs.map Change.swaps) (ds.map Change.swaps) := by
  obtain ⟨a1, a2, a3⟩ := applyAll_wf hb h
  obtain ⟨b1, b2, b3⟩ := applyAll_wf hb h'
  have va := (isRow_iff_valid _).1 a1
  have vb := (isRow_iff_valid _).1 b1
  simp only [bellAt_eq_fn] at a3 b3
  constructor
  · intro e p _
    apply va.fn_inj
    rw [a3]; rw [e]; exact (b3 p).symm
  · intro e
    apply ext_fn
    · rw [a2, b2]
    intro i hi
    rw [a2] at hi
    replace hi : i < b := hi
    set x := fn (applyAll (rounds b) cs) i with hx
    have hxb : x < b := va.fn_lt (le_of_eq a2) hi
    have e1 : follow (cs.map Change.swaps) x = i := va.fn_inj (by rw [a3])
    rw [e x hxb] at e1
    rw [← e1, b3]

/-! ### Loops -/

theorem placesRun_spec {m : Method} (hm : ∀ c ∈ m.ch, IsChange c.n c.swaps ∧ c.n = m.b) {i st : Nat}
    (hi : i < m.b) : ∀ {fuel count : Nat}, 2 ≤ count → fuel + count = m.ch.length + 2 →
    ∃ x, placesRun m i st fuel count = .ok x ∧ count ≤ x ∧ x ≤ m.ch.length + 2 ∧
      (∀ o c, m.ch.length + 2 - x ≤ o → o < m.ch.length + 2 - count → m.ch[o]? = some c →
        o ≠ st ∧ IsPlace m.b c.swaps i) ∧
      (x = m.ch.length + 2 ∨ ∃ c, m.ch[m.ch.length + 1 - x]? = some c ∧
        (m.ch.length + 1 - x = st ∨ ¬ IsPlace m.b c.swaps i)) := by
  intro fuel
  induction fuel with
  | zero =>
    intro count h1 h2
    exact ⟨count, rfl, le_rfl, by omega, fun o c h3 h4 => by omega, Or.inl (by omega)⟩
  | succ fuel ih =>
    intro count h1 h2
    have hlt : m.ch.length + 1 - count < m.ch.length := by omega
    have hml : m.length = m.ch.length := rfl
    rw [placesRun]
    simp only [hml]
    by_cases hst : m.ch.length + 1 - count = st
    · rw [if_pos hst]
      refine ⟨count, rfl, le_rfl, by omega, fun o c h3 h4 => by omega, Or.inr ?_⟩
      exact ⟨_, List.getElem?_eq_getElem hlt, Or.inl hst⟩
    · rw [if_neg hst, Method.WF.at_ok hlt, Out.ok_bind]
      have hw := hm _ (List.getElem_mem hlt)
      have hp : (m.ch[m.ch.length + 1 - count]).findplace i = true ↔
          IsPlace m.b (m.ch[m.ch.length + 1 - count]).swaps i := by
        rw [Change.WF.findplace_eq hw.1]; unfold IsPlace; simp [hi]
      by_cases hf : (m.ch[m.ch.length + 1 - count]).findplace i = true
      · rw [if_pos hf]
        obtain ⟨x, e1, e2, e3, e4, e5⟩ := ih (count := count + 1) (by omega) (by omega)
        refine ⟨x, e1, by omega, e3, ?_, e5⟩
        intro o c h3 h4 h5
        by_cases ho : o = m.ch.length + 1 - count
        · subst ho
          rw [List.getElem?_eq_getElem hlt] at h5
          have h5 := Option.some.inj h5
          subst h5
          exact ⟨hst, hp.1 hf⟩
        · exact e4 o c h3 (by omega) h5
      · rw [if_neg hf]
        refine ⟨count, rfl, le_rfl, by omega, fun o c h3 h4 => by omega, Or.inr ?_⟩
        exact ⟨_, List.getElem?_eq_getElem hlt, Or.inr (fun h => hf (hp.2 h))⟩

theorem consecLoop_spec {c : Change} (hc : IsChange c.n c.swaps) (max : Nat) : ∀ {k i count : Nat},
    i + k = c.n → count ≤ i → (∀ j, i - count ≤ j → j < i → IsPlace c.n c.swaps j) →
    (consecLoop c max k i count > max ↔ count > max ∨
      ∃ s, i - count ≤ s ∧ s + max < c.n ∧ ∀ j, s ≤ j → j ≤ s + max → IsPlace c.n c.swaps j) := by
  intro k
  induction k with
  | zero =>
    intro i count h1 h2 h3
    rw [consecLoop]
    constructor
    · exact Or.inl
    · rintro (h | ⟨s, h4, h5, h6⟩)
      · exact h
      · omega
  | succ k ih =>
    intro i count h1 h2 h3
    rw [consecLoop]
    have hi : i < c.n := by omega
    have hp : c.findplace i = true ↔ IsPlace c.n c.swaps i := by
      rw [Change.WF.findplace_eq hc]; unfold IsPlace; simp [hi]
    by_cases hle : count ≤ max
    · rw [if_pos hle]
      by_cases hf : c.findplace i = true
      · rw [if_pos hf, ih (by omega) (by omega) (by
          intro j h4 h5
          by_cases hj : j = i
          · rw [hj]; exact hp.1 hf
          · exact h3 j (by omega) (by omega))]
        constructor
        · rintro (h | ⟨s, h4, h5, h6⟩)
          · right
            refine ⟨i - count, le_rfl, by omega, fun j h7 h8 => ?_⟩
            by_cases hj : j = i
            · rw [hj]; exact hp.1 hf
            · exact h3 j (by omega) (by omega)
          · right; exact ⟨s, by omega, h5, h6⟩
        · rintro (h | ⟨s, h4, h5, h6⟩)
          · omega
          · right; exact ⟨s, by omega, h5, h6⟩
      · rw [if_neg hf, ih (by omega) (by omega) (by intro j h4 h5; omega)]
        constructor
        · rintro (h | ⟨s, h4, h5, h6⟩)
          · omega
          · right; exact ⟨s, by omega, h5, h6⟩
        · rintro (h | ⟨s, h4, h5, h6⟩)
          · omega
          · right
            refine ⟨s, ?_, h5, h6⟩
            by_contra hlt
            exact hf (hp.2 (h6 i (by omega) (by omega)))
    · rw [if_neg hle]
      exact ⟨Or.inl, fun _ => by omega⟩

theorem parityLoop_spec {R : Nat → Row} {od : Nat → Bool} : ∀ {n i e0 e1 o0 o1 : Nat},
    (∀ k, i ≤ k → k < i + n → signC (R k) = .ok (if od k then -1 else 1)) →
    parityLoop ((List.range' i n).map R) i e0 e1 o0 o1 = .ok
      (e0 + ((List.range' i n).filter fun k => k % 2 = 0 ∧ od k = false).length,
       e1 + ((List.range' i n).filter fun k => k % 2 = 1 ∧ od k = false).length,
       o0 + ((List.range' i n).filter fun k => k % 2 = 0 ∧ od k = true).length,
       o1 + ((List.range' i n).filter fun k => k % 2 = 1 ∧ od k = true).length) := by
  intro n
  induction n with
  | zero => intro i e0 e1 o0 o1 _; rfl
  | succ n ih =>
    intro i e0 e1 o0 o1 h
    rw [List.range'_succ, List.map_cons, parityLoop, h i le_rfl (by omega), Out.ok_bind]
    have ih' := fun e0 e1 o0 o1 => ih (i := i + 1) (e0 := e0) (e1 := e1) (o0 := o0) (o1 := o1)
      (fun k h1 h2 => h k (by omega) (by omega))
    rcases Nat.mod_two_eq_zero_or_one i with h2 | h2 <;> cases ho : od i <;>
      simp [h2, ho, ih'] <;> omega

end Ringing
