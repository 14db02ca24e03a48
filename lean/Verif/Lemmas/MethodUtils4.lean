import Verif.Lemmas.MethodUtils3
import Mathlib.Order.Interval.Finset.Nat

namespace Ringing
open Spec Row MethodUtils

/-! ### Dodges -/

/-- The condition at time `k` of the lead rung round and round. -/
def dAt (m : Method) (p : Change → Bool) (k : Nat) : Bool := p (m.ch.getD (k % m.ch.length) ⟨0, []⟩)

theorem atMod_getD {m : Method} (hne : m.ch ≠ []) (k : Nat) :
    atMod m k = .ok (m.ch.getD (k % m.ch.length) ⟨0, []⟩) := by
  have hl : 0 < m.ch.length := List.length_pos_iff.2 hne
  have hi : k % m.ch.length < m.ch.length := Nat.mod_lt _ hl
  unfold atMod
  rw [if_neg (by show ¬ m.ch.length = 0; omega)]
  show Method.at' m (k % m.ch.length) = _
  rw [Method.WF.at_ok hi, List.getD_eq_getElem?_getD, List.getElem?_eq_getElem hi]; rfl

theorem runDodges_spec {m : Method} (hne : m.ch ≠ []) (p : Change → Bool) : ∀ {n k : Nat},
    ∃ k1, runDodges m p n k = .ok k1 ∧ k ≤ k1 ∧ k1 ≤ k + n ∧ (∀ t, k ≤ t → t < k1 → dAt m p t = true) ∧
      (k1 = k + n ∨ dAt m p k1 = false) := by
  intro n
  induction n with
  | zero => intro k; exact ⟨k, rfl, le_rfl, le_rfl, fun t h1 h2 => by omega, Or.inl rfl⟩
  | succ n ih =>
    intro k
    rw [runDodges, atMod_getD hne, Out.ok_bind]
    by_cases h : p (m.ch.getD (k % m.ch.length) ⟨0, []⟩) = true
    · rw [if_pos h]
      obtain ⟨k1, h1, h2, h3, h4, h5⟩ := ih (k := k + 1)
      refine ⟨k1, h1, by omega, by omega, fun t h6 h7 => ?_, ?_⟩
      · by_cases ht : t = k
        · rw [ht]; exact h
        · exact h4 t (by omega) h7
      · rcases h5 with h5 | h5
        · left; omega
        · exact Or.inr h5
    · rw [if_neg h]
      exact ⟨k, rfl, le_rfl, by omega, fun t h1 h2 => by omega, Or.inr (by
        unfold dAt; simpa using h)⟩

/-- The pairs of consecutive times in `[k, hi)` at which the condition holds. -/
def pairsIn (m : Method) (p : Change → Bool) (k hi : Nat) : Finset Nat :=
  (Finset.Ico k hi).filter fun t => t + 1 < hi ∧ dAt m p t = true ∧ dAt m p (t + 1) = true

theorem dodgeLoop_spec {m : Method} (hne : m.ch ≠ []) (p : Change → Bool) (hi : Nat) : ∀ {fuel k : Nat},
    hi ≤ k + fuel →
    ∃ L, dodgeLoop m p hi fuel k = .ok L ∧
      (∀ d ∈ L, 0 < d) ∧
      (∀ d : Nat, (d : Int) ∈ L ↔ ∃ s e, k ≤ s ∧ s + 1 < e ∧ e ≤ hi ∧ (∀ t, s ≤ t → t < e → dAt m p t = true) ∧
        (s = k ∨ dAt m p (s - 1) = false) ∧ (e = hi ∨ dAt m p e = false) ∧ d = e - s - 1) ∧
      (L.map Int.toNat).sum = (pairsIn m p k hi).card := by
  intro fuel
  induction fuel with
  | zero =>
    intro k hk
    rw [dodgeLoop, if_neg (by omega)]
    refine ⟨[], rfl, by simp, ?_, ?_⟩
    · intro d; simp; intro s h1 e h2 h3; omega
    · unfold pairsIn; rw [Finset.Ico_eq_empty (by omega)]; rfl
  | succ fuel ih =>
    intro k hk
    rw [dodgeLoop]
    by_cases hlt : k < hi
    · rw [if_pos hlt]
      obtain ⟨k1, r1, r2, r3, r4, r5⟩ := runDodges_spec hne p (n := hi - k) (k := k)
      rw [r1, Out.ok_bind]
      obtain ⟨L, l1, l2, l3, l4⟩ := ih (k := k1 + 1) (by omega)
      rw [l1, Out.ok_bind]
      rw [show k + (hi - k) = hi by omega] at r3 r5
      refine ⟨_, rfl, ?_, ?_, ?_⟩
      · intro d hd
        split at hd
        · rcases List.mem_cons.1 hd with rfl | hd
          · omega
          · exact l2 d hd
        · exact l2 d hd
      · intro d
        have hmem : (d : Int) ∈ (if k1 > k + 1 then ((k1 : Int) - k - 1) :: L else L) ↔
            (k + 1 < k1 ∧ d = k1 - k - 1) ∨ (d : Int) ∈ L := by
          split
          · rename_i h
            rw [List.mem_cons]
            constructor
            · rintro (h | h)
              · left; omega
              · exact Or.inr h
            · rintro (h | h)
              · left; omega
              · exact Or.inr h
          · rename_i h
            constructor
            · exact Or.inr
            · rintro (h' | h')
              · omega
              · exact h'
        rw [hmem, l3]
        constructor
        · rintro (⟨h1, h2⟩ | ⟨s, e, h1, h2, h3, h4, h5, h6, h7⟩)
          · exact ⟨k, k1, le_rfl, h1, r3, r4, Or.inl rfl, r5, h2⟩
          · refine ⟨s, e, by omega, h2, h3, h4, ?_, h6, h7⟩
            right
            rcases h5 with h5 | h5
            · subst h5
              rcases r5 with r5 | r5
              · omega
              · simpa using r5
            · exact h5
        · rintro ⟨s, e, h1, h2, h3, h4, h5, h6, h7⟩
          by_cases hs : s < k1 + 1
          · -- the first run
            left
            have hsk : s = k := by
              rcases h5 with h5 | h5
              · exact h5
              · by_contra hne'
                rw [r4 (s - 1) (by omega) (by omega)] at h5
                exact absurd h5 (by simp)
            subst hsk
            have hek : e = k1 := by
              rcases Nat.lt_trichotomy e k1 with h | h | h
              · exfalso
                rcases h6 with h6 | h6
                · omega
                · rw [r4 e (by omega) h] at h6; exact absurd h6 (by simp)
              · exact h
              · exfalso
                rcases r5 with r5 | r5
                · omega
                · rw [h4 k1 r2 h] at r5; exact absurd r5 (by simp)
            subst hek
            exact ⟨h2, h7⟩
          · right
            refine ⟨s, e, by omega, h2, h3, h4, ?_, h6, h7⟩
            rcases h5 with h5 | h5
            · omega
            · exact Or.inr h5
      · have hdec : pairsIn m p k hi = Finset.Ico k (k1 - 1) ∪ pairsIn m p (k1 + 1) hi := by
          unfold pairsIn
          ext t
          simp only [Finset.mem_filter, Finset.mem_Ico, Finset.mem_union]
          constructor
          · rintro ⟨⟨a1, a2⟩, a3, a4, a5⟩
            by_cases h : k1 + 1 ≤ t
            · exact Or.inr ⟨⟨h, a2⟩, a3, a4, a5⟩
            · left
              refine ⟨a1, ?_⟩
              by_contra hc
              rcases r5 with r5 | r5
              · omega
              · rcases (by omega : t = k1 ∨ t + 1 = k1) with e | e
                · rw [e, r5] at a4; cases a4
                · rw [e, r5] at a5; cases a5
          · rintro (⟨a1, a2⟩ | ⟨⟨a1, a2⟩, a3⟩)
            · exact ⟨⟨a1, by omega⟩, by omega, r4 t a1 (by omega), r4 (t + 1) (by omega) (by omega)⟩
            · exact ⟨⟨by omega, a2⟩, a3⟩
        rw [hdec, Finset.card_union_of_disjoint, Nat.card_Ico, ← l4]
        · split
          · rw [List.map_cons, List.sum_cons]; omega
          · omega
        · rw [Finset.disjoint_left]
          intro t h1 h2
          unfold pairsIn at h2
          simp only [Finset.mem_filter, Finset.mem_Ico] at h1 h2
          omega
    · rw [if_neg hlt]
      refine ⟨[], rfl, by simp, ?_, ?_⟩
      · intro d; simp; intro s h1 e h2 h3; omega
      · unfold pairsIn; rw [Finset.Ico_eq_empty (by omega)]; rfl

theorem skipDodges_spec (p : Change → Bool) : ∀ {cs : List Change} {j : Nat},
    j ≤ skipDodges p cs j ∧ skipDodges p cs j ≤ j + cs.length ∧
      (∀ t c, j ≤ t → t < skipDodges p cs j → cs[t - j]? = some c → p c = true) ∧
      (skipDodges p cs j = j + cs.length ∨ ∃ c, cs[skipDodges p cs j - j]? = some c ∧ p c = false) := by
  intro cs
  induction cs with
  | nil => intro j; exact ⟨le_rfl, le_rfl, fun t c h1 h2 => by simp [skipDodges] at h2; omega, Or.inl rfl⟩
  | cons x cs ih =>
    intro j
    rw [skipDodges]
    by_cases h : p x = true
    · rw [if_pos h]
      obtain ⟨h1, h2, h3, h4⟩ := ih (j := j + 1)
      refine ⟨by omega, by simp only [List.length_cons]; omega, ?_, ?_⟩
      · intro t c h5 h6 h7
        by_cases ht : t = j
        · subst ht; simp at h7; rw [← h7]; exact h
        · rw [show t - j = (t - (j + 1)) + 1 by omega, List.getElem?_cons_succ] at h7
          exact h3 t c (by omega) h6 h7
      · rcases h4 with h4 | ⟨c, h4, h5⟩
        · left; simp only [List.length_cons]; omega
        · right
          refine ⟨c, ?_, h5⟩
          rw [show skipDodges p cs (j + 1) - j = (skipDodges p cs (j + 1) - (j + 1)) + 1 by omega,
            List.getElem?_cons_succ]
          exact h4
    · rw [if_neg h]
      exact ⟨le_rfl, by omega, fun t c h1 h2 => by omega, Or.inr ⟨x, by simp, by simpa using h⟩⟩

theorem dAt_add (m : Method) (p : Change → Bool) (k t : Nat) :
    dAt m p (k + t * m.ch.length) = dAt m p k := by
  unfold dAt; rw [Nat.add_mul_mod_self_right]

theorem dAt_of_lt {m : Method} {p : Change → Bool} {t : Nat} {c : Change} (h : m.ch[t]? = some c) :
    dAt m p t = p c := by
  have hlt := (List.getElem?_eq_some_iff.1 h).1
  unfold dAt
  rw [Nat.mod_eq_of_lt hlt, List.getD_eq_getElem?_getD, h]; rfl

/-- The dodges of one position, when it is not dodging throughout the lead. -/
theorem dodgesAt_some {m : Method} (p : Change → Bool) (hn : ∃ c ∈ m.ch, p c = false) :
    ∃ L, dodgesAt m p = .ok L ∧ (-1 : Int) ∉ L ∧
      (L.map Int.toNat).sum =
        ((Finset.range m.ch.length).filter fun t => dAt m p t = true ∧ dAt m p (t + 1) = true).card ∧
      ((∃ d ∈ L, d > 0 ∧ d % 2 ≠ 0) ↔ ∃ s len, 0 < len ∧ len % 2 = 0 ∧ dAt m p s = false ∧
        (∀ t, s < t → t ≤ s + len → dAt m p t = true) ∧ dAt m p (s + len + 1) = false) := by
  obtain ⟨c0, hc0, hp0⟩ := hn
  have hne : m.ch ≠ [] := by rintro h; rw [h] at hc0; cases hc0
  have hl : 0 < m.ch.length := List.length_pos_iff.2 hne
  obtain ⟨-, j2, j3, j4⟩ := skipDodges_spec p (cs := m.ch) (j := 0)
  unfold dodgesAt
  set j := skipDodges p m.ch 0 with hj
  obtain ⟨i0, hi0⟩ := List.mem_iff_getElem?.1 hc0
  have hi0l := (List.getElem?_eq_some_iff.1 hi0).1
  have hjl : j < m.ch.length := by
    by_contra h
    have := j3 i0 c0 (by omega) (by omega) (by simpa using hi0)
    rw [hp0] at this; cases this
  have hDj : dAt m p j = false := by
    rcases j4 with j4 | ⟨c, h1, h2⟩
    · omega
    · rw [dAt_of_lt (by simpa using h1), h2]
  have hDjl : dAt m p (j + m.ch.length) = false := by
    have := dAt_add m p j 1; rw [one_mul] at this; rw [this, hDj]
  obtain ⟨L, l1, l2, l3, l4⟩ := dodgeLoop_spec hne p (j + m.ch.length) (fuel := m.ch.length) (k := j) le_rfl
  have l1 : dodgeLoop m p (j + m.length) m.length j = .ok L := l1
  simp only [l1, Out.ok_bind]
  rw [if_neg (by show ¬ j = m.ch.length; omega)]
  refine ⟨L, rfl, fun h => by have := l2 _ h; omega, ?_, ?_⟩
  · rw [l4]
    have hper : Function.Periodic (fun t => dAt m p t = true ∧ dAt m p (t + 1) = true) m.ch.length := by
      intro t
      show (dAt m p (t + m.ch.length) = true ∧ dAt m p (t + m.ch.length + 1) = true) = _
      have e1 := dAt_add m p t 1; rw [one_mul] at e1
      have e2 := dAt_add m p (t + 1) 1; rw [one_mul] at e2
      rw [e1, show t + m.ch.length + 1 = t + 1 + m.ch.length by omega, e2]
    have h1 := Nat.filter_Ico_card_eq_of_periodic j m.ch.length _ hper
    have h2 := Nat.filter_Ico_card_eq_of_periodic 0 m.ch.length _ hper
    rw [Nat.zero_add, Nat.Ico_zero_eq_range] at h2
    rw [h2, ← h1]
    congr 1
    unfold pairsIn
    ext t
    simp only [Finset.mem_filter, Finset.mem_Ico]
    constructor
    · rintro ⟨a, -, b⟩; exact ⟨a, b⟩
    · rintro ⟨a, b⟩
      refine ⟨a, ?_, b⟩
      by_contra hc
      rw [show t + 1 = j + m.ch.length by omega, hDjl] at b
      exact absurd b.2 (by simp)
  · constructor
    · rintro ⟨d, hd, h1, h2⟩
      obtain ⟨d, rfl⟩ := Int.eq_ofNat_of_zero_le (show 0 ≤ d by omega)
      obtain ⟨s, e, a1, a2, a3, a4, a5, a6, a7⟩ := (l3 d).1 hd
      have hs : s ≠ j := by
        intro h
        have := a4 s le_rfl (by omega)
        rw [h, hDj] at this; cases this
      refine ⟨s - 1, e - s, by omega, by omega, ?_, ?_, ?_⟩
      · rcases a5 with a5 | a5
        · exact absurd a5 hs
        · exact a5
      · intro t h3 h4; exact a4 t (by omega) (by omega)
      · rw [show s - 1 + (e - s) + 1 = e by omega]
        rcases a6 with a6 | a6
        · rw [a6, hDjl]
        · exact a6
    · rintro ⟨s0, len, h1, h2, h3, h4, h5⟩
      -- move the run into the window
      have hmod : ∀ x y, x % m.ch.length = y % m.ch.length → dAt m p x = dAt m p y := by
        intro x y h; unfold dAt; rw [h]
      obtain ⟨s, hs1, hs2, hs3⟩ : ∃ s, j ≤ s ∧ s < j + m.ch.length ∧ s % m.ch.length = s0 % m.ch.length := by
        by_cases h : j ≤ s0 % m.ch.length
        · exact ⟨s0 % m.ch.length, h, by have := Nat.mod_lt s0 hl; omega, Nat.mod_mod _ _⟩
        · exact ⟨s0 % m.ch.length + m.ch.length, by omega, by omega, by rw [Nat.add_mod_right, Nat.mod_mod]⟩
      have hsh : ∀ k, dAt m p (s + k) = dAt m p (s0 + k) := by
        intro k; apply hmod; rw [Nat.add_mod, hs3, ← Nat.add_mod]
      have hin : s + len < j + m.ch.length := by
        by_contra hc
        have := h4 (s0 + (j + m.ch.length - s)) (by omega) (by omega)
        rw [← hsh, show s + (j + m.ch.length - s) = j + m.ch.length by omega, hDjl] at this
        cases this
      refine ⟨(len - 1 : Nat), (l3 (len - 1)).2 ⟨s + 1, s + len + 1, by omega, by omega, by omega, ?_, ?_, ?_, by omega⟩,
        by omega, by omega⟩
      · intro t h6 h7
        have := h4 (s0 + (t - s)) (by omega) (by omega)
        rw [← hsh, show s + (t - s) = t by omega] at this
        exact this
      · right
        have := hsh 0
        simp only [Nat.add_zero] at this
        simpa [this] using h3
      · right
        have := hsh (len + 1)
        rw [← add_assoc, ← add_assoc] at this
        rw [this]; exact h5

/-- The dodges of one position, when it is dodging throughout the lead. -/
theorem dodgesAt_all {m : Method} (p : Change → Bool) (hn : ∀ c ∈ m.ch, p c = true) :
    ∃ L, dodgesAt m p = .ok L ∧ (-1 : Int) ∈ L ∧
      ((∃ d ∈ L, d > 0 ∧ d % 2 ≠ 0) ↔ 0 < m.ch.length ∧ m.ch.length % 2 = 0) := by
  obtain ⟨-, j2, j3, j4⟩ := skipDodges_spec p (cs := m.ch) (j := 0)
  unfold dodgesAt
  set j := skipDodges p m.ch 0 with hj
  have hjl : j = m.ch.length := by
    rcases j4 with j4 | ⟨c, h1, h2⟩
    · omega
    · rw [hn c (List.mem_of_getElem? h1)] at h2; cases h2
  by_cases hne : m.ch = []
  · have h0 : m.ch.length = 0 := by rw [hne]; rfl
    have hm0 : m.length = 0 := h0
    simp only [hm0]
    refine ⟨[-1], ?_, by simp, ?_⟩
    · rw [dodgeLoop, if_neg (by omega), Out.ok_bind, if_pos (by omega)]
      rfl
    · simp
  have hl : 0 < m.ch.length := List.length_pos_iff.2 hne
  have hD : ∀ t, dAt m p t = true := by
    intro t
    have hi : t % m.ch.length < m.ch.length := Nat.mod_lt _ hl
    unfold dAt
    rw [List.getD_eq_getElem?_getD, List.getElem?_eq_getElem hi]
    exact hn _ (List.getElem_mem hi)
  obtain ⟨L, l1, l2, l3, -⟩ := dodgeLoop_spec hne p (j + m.ch.length) (fuel := m.ch.length) (k := j) le_rfl
  have l1 : dodgeLoop m p (j + m.length) m.length j = .ok L := l1
  simp only [l1, Out.ok_bind]
  rw [if_pos (show j = m.length from hjl)]
  refine ⟨_, rfl, by simp, ?_⟩
  constructor
  · rintro ⟨d, hd, h1, h2⟩
    rcases List.mem_cons.1 hd with rfl | hd
    · omega
    obtain ⟨d, rfl⟩ := Int.eq_ofNat_of_zero_le (show 0 ≤ d by omega)
    obtain ⟨s, e, a1, a2, a3, a4, a5, a6, a7⟩ := (l3 d).1 hd
    rw [hD] at a5 a6
    simp only [Bool.true_eq_false, or_false] at a5 a6
    omega
  · rintro ⟨h1, h2⟩
    refine ⟨(m.ch.length - 1 : Nat), List.mem_cons_of_mem _ ((l3 _).2 ⟨j, j + m.ch.length, le_rfl, by omega, le_rfl,
      fun t _ _ => hD t, Or.inl rfl, Or.inl rfl, by omega⟩), by omega, by omega⟩

end Ringing
